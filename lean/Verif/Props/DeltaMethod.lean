import Verif.Props.LegalSmooth

/-!
# C197: at a stationary point, the covariances of the two parameterizations agree
-/

namespace LRVB

variable {A : Type}

/-- **C197** (congruence) At a point where `fun_vector_grad` returns zeros, the free Hessian is the vector Hessian
between the Jacobian of `free_to_vector_jac` and its transpose. -/
theorem C197_congruent {eigh : Eigh} (he : EighContract eigh) (o : Objective A) (a : A)
    (hb : Built eigh o.par) (hp : o.par.HasParams) (hn : 0 < o.par.vecSize)
    (hn' : 0 < o.par.freeSize) (f : (Fin o.par.vecSize → ℝ) → ℝ) (hf : SmoothOnLegal o.par f)
    (hfn : ∀ (q : Param) (v : List ℝ), q.getVector = .ok v → v.length = o.par.vecSize →
      o.fn a q = .ok (Arr.scalar (f (toVec o.par.vecSize v))))
    (x v : List ℝ) (P : ℕ → ℕ → ℝ) (hx : Coordinates o.par true x v P)
    (g : List ℝ) (hg : (o.funVectorGrad v a).2 = .ok g) (h0 : ∀ i < o.par.vecSize, g.getD i 0 = 0) :
    ∃ Hf Hv, (o.funFreeHessian x a).2 = .ok Hf ∧ (o.funVectorHessian v a).2 = .ok Hv ∧
      IsMat Hf o.par.freeSize o.par.freeSize ∧ IsMat Hv o.par.vecSize o.par.vecSize ∧
      ∀ b < o.par.freeSize, ∀ c < o.par.freeSize, Hf.at2 b c =
        ∑ i ∈ Finset.range o.par.vecSize, ∑ j ∈ Finset.range o.par.vecSize, P i b * Hv.at2 i j * P j c := by
  have hw := hb.wf he
  have hxl : x.length = o.par.freeSize := hx.length
  have hxv : o.par.freeToVectorVal x = .ok v := by simpa using hx.value
  have hvl := (legal_of_free he hb hp hxl hxv).1
  have hFv := valueAt_vector (F := fun u => Arr.scalar (f u)) hw hp hfn
  have hfv := hf x v hxl hxv
  obtain ⟨v', g', Hv, M, e1, e2, e3, e4, e5⟩ := C87_legal_values he o a hb hp hn hn' f hf hfn x hxl
  rw [hxv] at e1
  cases e1
  rw [hg] at e2
  cases e2
  have hHv : IsMat Hv o.par.vecSize o.par.vecSize := by
    rw [Objective.funVectorHessian, o.deriv_value _ _ _ _ (valueAt_ok_set (hFv _ hvl)),
      agHess_at hFv hvl hn hfv] at e3
    rw [← Except.ok.inj e3]
    exact ⟨Arr.ofFn2_WF _ _ _, rfl⟩
  have hgl : g.length = o.par.vecSize := by
    rw [Objective.funVectorGrad, o.deriv_value _ _ _ _ (valueAt_ok_set (hFv _ hvl)),
      agGrad_at hFv hvl (hfv.differentiableAt (by norm_num))] at hg
    rw [← Except.ok.inj hg]
    simp
  obtain ⟨p', M', k1, k2, k3⟩ := o.par.convertHessian_ok hw hp hn x hxl g hgl Hv hHv
  rw [k1] at e4
  cases e4
  obtain ⟨q, J, hJ, hP⟩ := by simpa only [if_true] using hx.jac
  obtain ⟨q', J', hJ', ho⟩ := o.par.jac_ok hw hp x hxl
  rw [hJ] at hJ'
  cases hJ'
  refine ⟨M, Hv, e5, e3, k2, hHv, fun b hb' c hc => ?_⟩
  rw [k3 b hb' c hc, Finset.sum_eq_zero fun i hi => by rw [h0 i (Finset.mem_range.1 hi), mul_zero], zero_add]
  refine Finset.sum_congr rfl fun i hi => Finset.sum_congr rfl fun j hj => ?_
  have hi := Finset.mem_range.1 hi
  have hj := Finset.mem_range.1 hj
  rw [hP i hi b hb', hP j hj c hc, ho.val i hi b hb', ho.val j hj c hc]

/-- **C197** (covariance) If, moreover, the vector Hessian is positive definite, then the free Hessian is
invertible; and when there are as many free values as vector entries, the inverse of the free Hessian between the
Jacobian and its transpose (the delta method) is the inverse of the vector Hessian. -/
theorem C197_covariance {eigh : Eigh} (he : EighContract eigh) (o : Objective A) (a : A)
    (hb : Built eigh o.par) (hp : o.par.HasParams) (hn : 0 < o.par.vecSize)
    (hn' : 0 < o.par.freeSize) (f : (Fin o.par.vecSize → ℝ) → ℝ) (hf : SmoothOnLegal o.par f)
    (hfn : ∀ (q : Param) (v : List ℝ), q.getVector = .ok v → v.length = o.par.vecSize →
      o.fn a q = .ok (Arr.scalar (f (toVec o.par.vecSize v))))
    (x v : List ℝ) (P : ℕ → ℕ → ℝ) (hx : Coordinates o.par true x v P)
    (g : List ℝ) (hg : (o.funVectorGrad v a).2 = .ok g) (h0 : ∀ i < o.par.vecSize, g.getD i 0 = 0)
    (Hv : Arr) (hHv : (o.funVectorHessian v a).2 = .ok Hv)
    (hpd : (toMatrix o.par.vecSize o.par.vecSize Hv).PosDef) :
    ∃ (Hf : Arr) (W : Matrix (Fin o.par.freeSize) (Fin o.par.freeSize) ℝ), (o.funFreeHessian x a).2 = .ok Hf ∧
      (toMatrix o.par.freeSize o.par.freeSize Hf).PosDef ∧
      toMatrix o.par.freeSize o.par.freeSize Hf * W = 1 ∧
      (o.par.freeSize = o.par.vecSize →
        toMatrix o.par.vecSize o.par.vecSize Hv *
          ((Matrix.of fun (i : Fin o.par.vecSize) (j : Fin o.par.freeSize) => P i j) * W *
            (Matrix.of fun (i : Fin o.par.vecSize) (j : Fin o.par.freeSize) => P i j).transpose) = 1) := by
  obtain ⟨Hf, Hv', e1, e2, -, -, e3⟩ := C197_congruent he o a hb hp hn hn' f hf hfn x v P hx g hg h0
  rw [hHv] at e2
  cases e2
  set B : Matrix (Fin o.par.vecSize) (Fin o.par.freeSize) ℝ := Matrix.of fun i j => P i j with hB
  have hcong : toMatrix o.par.freeSize o.par.freeSize Hf =
      B.conjTranspose * toMatrix o.par.vecSize o.par.vecSize Hv * B := by
    ext b c
    rw [show toMatrix o.par.freeSize o.par.freeSize Hf b c = Hf.at2 b c from rfl, e3 b b.2 c c.2]
    simp only [Matrix.mul_apply, Matrix.conjTranspose_apply, star_trivial, Finset.sum_mul, Finset.sum_range]
    rw [Finset.sum_comm]
    rfl
  have hinj : Function.Injective B.mulVec := by
    have hxl : x.length = o.par.freeSize := hx.length
    obtain ⟨q, J, hJ, hP⟩ := by simpa only [if_true] using hx.jac
    obtain ⟨q', J', hJ', -, -, hr⟩ := C147_full_rank he o.par hb hp x hxl
    rw [hJ] at hJ'
    cases hJ'
    rw [← Matrix.coe_mulVecLin, ← LinearMap.ker_eq_bot, LinearMap.ker_eq_bot']
    intro w hw
    have key := hr (fun j => if hj : j < o.par.freeSize then w ⟨j, hj⟩ else 0) (fun i hi => by
      have := congrFun hw ⟨i, hi⟩
      rw [Finset.sum_range]
      simp only [Fin.is_lt, dite_true, Fin.eta]
      rw [← show B.mulVecLin w ⟨i, hi⟩ = 0 from this]
      simp only [Matrix.mulVecLin_apply, Matrix.mulVec, dotProduct]
      exact Finset.sum_congr rfl fun j _ => by rw [← hP i hi j j.2]; rfl)
    funext j
    simpa using key j j.2
  have hpf : (toMatrix o.par.freeSize o.par.freeSize Hf).PosDef := by
    rw [hcong]
    exact hpd.conjTranspose_mul_mul_same hinj
  have hinv : toMatrix o.par.freeSize o.par.freeSize Hf * (toMatrix o.par.freeSize o.par.freeSize Hf)⁻¹ = 1 :=
    Matrix.mul_nonsing_inv _ ((Matrix.isUnit_iff_isUnit_det _).1 hpf.isUnit)
  refine ⟨Hf, (toMatrix o.par.freeSize o.par.freeSize Hf)⁻¹, e1, hpf, hinv, fun hs => ?_⟩
  set W := (toMatrix o.par.freeSize o.par.freeSize Hf)⁻¹ with hW
  rw [hcong, Matrix.conjTranspose_eq_transpose_of_trivial, Matrix.mul_assoc, Matrix.mul_assoc] at hinv
  have hinv' := (Matrix.mul_eq_one_comm_of_equiv (finCongr hs)).1 hinv
  rw [← hinv']
  simp only [Matrix.mul_assoc]

/-- The hypotheses are met by `(v - 1)^2` for a positive scalar `v`, at `v = 1`. -/
example : ∃ (eigh : Eigh) (o : Objective Unit) (f : (Fin o.par.vecSize → ℝ) → ℝ) (x v : List ℝ) (P : ℕ → ℕ → ℝ)
    (g : List ℝ) (Hv : Arr), EighContract eigh ∧ Built eigh o.par ∧ o.par.HasParams ∧ o.par.vecSize = 1 ∧
    o.par.freeSize = 1 ∧ SmoothOnLegal o.par f ∧
    (∀ (q : Param) (v : List ℝ), q.getVector = .ok v → v.length = o.par.vecSize →
      o.fn () q = .ok (Arr.scalar (f (toVec o.par.vecSize v)))) ∧
    Coordinates o.par true x v P ∧ (o.funVectorGrad v ()).2 = .ok g ∧ (∀ i < o.par.vecSize, g.getD i 0 = 0) ∧
    (o.funVectorHessian v ()).2 = .ok Hv ∧ (toMatrix o.par.vecSize o.par.vecSize Hv).PosDef := by
  obtain ⟨eigh, he⟩ := exists_eigh
  have hb : Built eigh (scPar (Flt.fin 0)) :=
    .leaf ⟨_, [], .scalar (name := "s") (lb := Flt.fin 0) (ub := Flt.pinf) (val := some (Arr.scalar 1))
      (by simp [mkScalar, checkBoundsScalar, Leaf.set]), rfl⟩ trivial
  have hw := hb.wf he
  have hl : (scPar (Flt.fin 0)).LegalVec [1] := by
    simp [scPar, Param.LegalVec, Kind.LegalVec]
  obtain ⟨x, ⟨hx, hv⟩, -⟩ := (C150_image he (scPar (Flt.fin 0)) hb trivial [1] rfl).mp hl
  obtain ⟨v, P, hP⟩ := C181_coordinates he (scPar (Flt.fin 0)) hb trivial true x hx
  have hv1 : v = [1] := by
    have := hP.value
    simp only [if_true, hv] at this
    exact (Except.ok.inj this).symm
  subst hv1
  set f : (Fin 1 → ℝ) → ℝ := fun u => (u 0 - 1) ^ 2 with hf
  have hcd : ContDiff ℝ 2 f := by fun_prop
  set o : Objective Unit := { exObj with
    par := scPar (Flt.fin 0)
    fn := fun _ q => do let v ← q.getVector; .ok (Arr.scalar (f (toVec 1 v))) } with ho
  have hfn : ∀ (q : Param) (v : List ℝ), q.getVector = .ok v → v.length = o.par.vecSize →
      o.fn () q = .ok (Arr.scalar (f (toVec 1 v))) := by
    intro q v hq _
    simp only [ho, hq, py_ok_bind]
  have hFv : ∀ y : List ℝ, y.length = 1 → valueAt (o.fn ()) o.par false y = .ok (Arr.scalar (f (toVec 1 y))) :=
    fun y hy => valueAt_vector (p := o.par) (F := fun u => Arr.scalar (f u)) hw trivial hfn y hy
  have hval : ∀ y : List ℝ, y.length = 1 →
      (if false then (o.funFree y () false).2 else (o.funVector y ()).2) = .ok (Arr.scalar (f (toVec 1 y))) := by
    intro y hy
    have hy' : y.length = o.par.vecSize := hy
    have hpl := Param.setVector_plain o.par y (by rw [o.par.setVector_ok hw y hy'])
    rw [o.par.setVector_ok hw y hy'] at hpl
    simp only [Bool.false_eq_true, if_false, Objective.funVector, o.par.setVector_ok hw y hy']
    rw [Param.mark_plain _ hpl]
    exact hfn _ _ (o.par.getVector_vecP hw trivial y hy') hy'
  obtain ⟨g, H, -, e1, e2, -, e4, -, e6, e7, -⟩ :=
    C86_derivatives o () false 1 one_pos f hcd hval [1] [0] rfl rfl
  have hpd : ∀ t : ℝ, PartialDeriv (o.valueList false ()) 0 0 [t] (2 * (t - 1)) := by
    intro t
    refine ⟨fun s => (s - 1) ^ 2, fun s => ⟨[(s - 1) ^ 2], ?_, rfl⟩, ?_⟩
    · rw [Objective.valueList_eq, hFv _ rfl]
      rfl
    · have := ((hasDerivAt_id t).sub_const 1).fun_pow 2
      simpa using this
  have hg0 : g.getD 0 0 = 0 := by
    have := (e6 0 one_pos).unique (hpd 1)
    simpa using this
  have hH : H.at2 0 0 = 2 := by
    refine (e7 0 one_pos 0 one_pos).1.unique ⟨fun s => 2 * (s - 1), fun s => hpd s, ?_⟩
    have := ((hasDerivAt_id (1 : ℝ)).sub_const 1).const_mul 2
    simpa using this
  refine ⟨eigh, o, f, x, [1], P, g, H, he, hb, trivial, rfl, rfl, fun _ _ _ _ => hcd.contDiffAt, hfn, hP, e1, ?_, e2, ?_⟩
  · intro i hi
    have hi' : i < 1 := hi
    obtain rfl : i = 0 := by omega
    exact hg0
  · have : toMatrix 1 1 H = (2 : ℝ) • (1 : Matrix (Fin 1) (Fin 1) ℝ) := by
      ext i j
      have hi : i = 0 := Subsingleton.elim _ _
      have hj : j = 0 := Subsingleton.elim _ _
      subst hi hj
      simp [toMatrix, hH]
    change (toMatrix 1 1 H).PosDef
    rw [this]
    exact Matrix.PosDef.one.smul (by norm_num)

end LRVB
