import Verif.Props.InvSqrt
import Verif.Props.Precond
import Verif.Props.Minimize
import Verif.Lemmas.Sens
import Verif.Lemmas.Terms6
import Verif.Lemmas.Embed

/-!
# C176: preconditioning at a point makes the problem well conditioned there
-/

namespace LRVB

open scoped Matrix

noncomputable section

variable {d : ℕ}

/-! ### Lemmas on matrices -/

theorem toMatrix_ofFn2 {r c : ℕ} (f : ℕ → ℕ → ℝ) (i : Fin r) (j : Fin c) :
    toMatrix r c (Arr.ofFn2 r c f) i j = f i j := by
  rw [toMatrix, Matrix.of_apply, Arr.at2_ofFn2 _ _ _ i.2 j.2]

theorem toMatrix_matmul {a b m : Arr} {r c k : ℕ} (ha : a.shape = [r, c]) (hb : b.shape = [c, k])
    (h : a.matmul b = .ok m) : IsMat m r k ∧ toMatrix r k m = toMatrix r c a * toMatrix c k b := by
  rw [matmul_ok ha hb] at h
  injection h with h
  subst h
  refine ⟨⟨Arr.ofFn2_WF _ _ _, rfl⟩, ?_⟩
  ext i j
  rw [toMatrix_ofFn2, Matrix.mul_apply, Finset.sum_range]
  rfl

theorem toMatrix_transpose {a : Arr} {r c : ℕ} (ha : a.shape = [r, c]) :
    toMatrix c r a.transpose = (toMatrix r c a)ᵀ := by
  ext i j
  have : a.transpose = Arr.ofFn2 c r fun i j => a.at2 j i := by
    unfold Arr.transpose
    rw [ha]
    rfl
  rw [this, toMatrix_ofFn2]
  rfl

theorem toVec_mulVec {a : Arr} {r c : ℕ} (ha : a.shape = [r, c]) {x y : List ℝ} (hx : x.length = c)
    (h : a.mulVec x = .ok y) : y.length = r ∧ toVec r y = toMatrix r c a *ᵥ toVec c x := by
  rw [mulVec_toMatrix ha hx] at h
  injection h with h
  subst h
  exact ⟨by simp, toVec_ofFn _⟩

/-- The two results for a symmetric matrix, by its eigenvalues. -/
theorem getSymMatrixInvSqrt_spectral {eigh : Eigh} (he : EighContract eigh) {h s c : Arr}
    {evMin evMax : Option ℝ} (hs : IsMat h d d) (hsym : (toMatrix d d h)ᵀ = toMatrix d d h)
    (hr : getSymMatrixInvSqrt eigh h evMin evMax = .ok (s, c)) :
    ∃ w V, IsEigh (toMatrix d d h) w V ∧ (∀ i, 0 < clipped evMin evMax (w i)) ∧
      IsMat s d d ∧ IsMat c d d ∧
      toMatrix d d s = V * (Matrix.diagonal (fun i => 1 / Real.sqrt (clipped evMin evMax (w i))) * Vᵀ) ∧
      toMatrix d d c = V * (Matrix.diagonal (fun i => clipped evMin evMax (w i)) * Vᵀ) := by
  have hsp : symPart (toMatrix d d h) = toMatrix d d h := by
    unfold symPart
    rw [hsym, ← two_smul ℝ (toMatrix d d h), smul_smul]
    norm_num
  have h5 : (0.5 : ℝ) • (toMatrix d d h + (toMatrix d d h)ᵀ) = toMatrix d d h := by
    rw [← hsp]
    conv_rhs => rw [symPart]
    rw [hsp]
    norm_num
  have hE := he d (toMatrix d d h) hsym
  have hpos := (C65_inverse_square_root he hs evMin evMax).1.mpr ⟨_, hr⟩
  rw [hsp] at hpos
  refine ⟨_, _, hE, fun i => hpos _ ((hE.eigenvalue_iff _).mpr ⟨i, rfl⟩), ?_⟩
  unfold getSymMatrixInvSqrt at hr
  simp only [hs.2, h5, thresholdEv_eq] at hr
  simp only [ne_eq, not_true_eq_false, if_false] at hr
  split_ifs at hr with hc
  injection hr with hr
  injection hr with h1 h2
  subst h1; subst h2
  exact ⟨ofMatrix_isMat _, ofMatrix_isMat _, toMatrix_ofMatrix _, toMatrix_ofMatrix _⟩

theorem IsEigh.conj_mul {M V : Matrix (Fin d) (Fin d) ℝ} {w : Fin d → ℝ} (h : IsEigh M w V) (a b : Fin d → ℝ) :
    V * (Matrix.diagonal a * Vᵀ) * (V * (Matrix.diagonal b * Vᵀ)) =
      V * (Matrix.diagonal (fun i => a i * b i) * Vᵀ) := by
  rw [mul_assoc, mul_assoc (Matrix.diagonal a), ← mul_assoc Vᵀ, h.orthonormal, one_mul, ← mul_assoc (Matrix.diagonal a),
    Matrix.diagonal_mul_diagonal]

theorem IsEigh.conj_transpose {V : Matrix (Fin d) (Fin d) ℝ} (a : Fin d → ℝ) :
    (V * (Matrix.diagonal a * Vᵀ))ᵀ = V * (Matrix.diagonal a * Vᵀ) := by
  rw [Matrix.transpose_mul, Matrix.transpose_mul, Matrix.transpose_transpose, Matrix.diagonal_transpose, mul_assoc]

/-! ### The objective after `set_objective_preconditioner` -/

/-- What is known after `set_objective_preconditioner(objective, free_par=x0)` returned. -/
theorem setObjectivePreconditioner_at {eigh : Eigh} (he : EighContract eigh) {o o' : Objective Unit}
    {x0 : List ℝ} (hd : 0 < d) (hx : x0.length = d) {f : (Fin d → ℝ) → ℝ} (hf : ContDiff ℝ 2 f)
    (hval : ∀ y : List ℝ, y.length = d → (o.funFree y () false).2 = .ok (Arr.scalar (f (toVec d y))))
    {evMin evMax : Option ℝ} {h s c : Arr}
    (hr : setObjectivePreconditioner eigh o (some x0) none evMin evMax = (o', .ok (h, s, c))) :
    o'.precond = some s ∧
    (∀ p, SameObj o' p → ∀ y : List ℝ, y.length = d →
      valueAt (p.fn ()) p.par true y = .ok (Arr.scalar (f (toVec d y)))) ∧
    h = Arr.ofFn2 d d (fun i j => fderiv ℝ (fderiv ℝ f) (toVec d x0) (basis d j) (basis d i)) ∧
    ∃ w V, IsEigh (toMatrix d d h) w V ∧ (∀ i, 0 < clipped evMin evMax (w i)) ∧
      IsMat s d d ∧ IsMat c d d ∧
      toMatrix d d s = V * (Matrix.diagonal (fun i => 1 / Real.sqrt (clipped evMin evMax (w i))) * Vᵀ) ∧
      toMatrix d d c = V * (Matrix.diagonal (fun i => clipped evMin evMax (w i)) * Vᵀ) := by
  have h1 : (setObjectivePreconditioner eigh o (some x0) none evMin evMax).2 = .ok (h, s, c) := by rw [hr]
  have hF : ∀ y : List ℝ, y.length = d → valueAt (o.fn ()) o.par true y = .ok (Arr.scalar (f (toVec d y))) := by
    intro y hy
    rw [← o.funFree_value]
    exact hval y hy
  have h2 := C65_set_preconditioner o (some x0) none evMin evMax h1
  simp only [hr] at h2
  obtain ⟨a1, a2, -, a4, a5⟩ := h2
  obtain ⟨g, hg, -⟩ | ⟨-, x, hx', b1, b2⟩ := a5
  · exact absurd hg (by simp)
  injection hx' with hx'
  subst hx'
  have hh : h = Arr.ofFn2 d d (fun i j => fderiv ℝ (fderiv ℝ f) (toVec d x0) (basis d j) (basis d i)) := by
    rw [Objective.funFreeHessian, o.deriv_value _ _ _ _ (valueAt_ok_set (hF x0 hx)), agHess_ok hf hF hx hd] at b1
    exact (Except.ok.inj b1).symm
  have hm : IsMat h d d := by rw [hh]; exact ⟨Arr.ofFn2_WF _ _ _, rfl⟩
  have hsym : (toMatrix d d h)ᵀ = toMatrix d d h := by
    ext i j
    rw [Matrix.transpose_apply, hh, toMatrix_ofFn2, toMatrix_ofFn2]
    exact (hf.contDiffAt.isSymmSndFDerivAt (by simp)).eq _ _
  refine ⟨a1, fun p hp y hy => ?_, hh, getSymMatrixInvSqrt_spectral he hm hsym a4⟩
  have hb : p.par.blank = o.par.blank := by
    rw [hp.blank, b2]
    exact (SameObj.deriv o true x0 fun F => agHess F x0).blank
  rw [hp.fn, a2, valueAt_blank hb.symm]
  exact hF y hy

/-- The gradient as a vector. -/
def gradVec (f : (Fin d → ℝ) → ℝ) (u : Fin d → ℝ) : Fin d → ℝ := fun j => fderiv ℝ f u (Pi.single j 1)

theorem toVec_gradList (f : (Fin d → ℝ) → ℝ) (u : Fin d → ℝ) :
    toVec d ((List.range d).map fun j => fderiv ℝ f u (basis d j)) = gradVec f u := by
  funext i
  simp [toVec, gradVec, List.getD_eq_getElem?_getD, basis_fin]

theorem npSolve_unique {P : Arr} (hP : P.shape = [d, d]) (hdet : (toMatrix d d P).det ≠ 0) {x : List ℝ}
    (hx : x.length = d) : ∃ z, npSolve P x = .ok z ∧ z.length = d ∧ P.mulVec z = .ok x ∧
      ∀ z', z'.length = d → P.mulVec z' = .ok x → z' = z := by
  have hu : IsUnit (toMatrix d d P).det := isUnit_iff_ne_zero.mpr hdet
  refine ⟨List.ofFn ((toMatrix d d P)⁻¹ *ᵥ toVec d x), ?_, by simp, ?_, ?_⟩
  · unfold npSolve
    rw [hP]
    simp only [ne_eq, not_true_eq_false, if_false, hx, hdet]
    rfl
  · rw [mulVec_toMatrix hP (by simp), toVec_ofFn, Matrix.mulVec_mulVec, Matrix.mul_nonsing_inv _ hu, Matrix.one_mulVec]
    congr 1
    exact toVec_inj (by simp) hx (toVec_ofFn _)
  · intro z' hz' h
    refine toVec_inj hz' (by simp) ?_
    rw [toVec_ofFn, (toVec_mulVec hP hz' h).2, Matrix.mulVec_mulVec, Matrix.nonsing_inv_mul _ hu, Matrix.one_mulVec]

theorem spectral_det_ne {M V : Matrix (Fin d) (Fin d) ℝ} {w : Fin d → ℝ} (h : IsEigh M w V) {a : Fin d → ℝ}
    (ha : ∀ i, a i ≠ 0) : (V * (Matrix.diagonal a * Vᵀ)).det ≠ 0 := by
  have h1 := h.conj_mul a fun i => (a i)⁻¹
  simp only [mul_inv_cancel₀ (ha _)] at h1
  rw [show (Matrix.diagonal fun _ : Fin d => (1 : ℝ)) = 1 from Matrix.diagonal_one, one_mul, h.right] at h1
  intro h0
  have := congrArg Matrix.det h1
  rw [Matrix.det_mul, h0, zero_mul, Matrix.det_one] at this
  exact zero_ne_one this

/-- **C176** Let the objective compute `f` on free vectors of length `d`, with `f` twice continuously
differentiable, and let `set_objective_preconditioner(objective, free_par=x0, ev_min, ev_max)` return
the Hessian `h` at `x0`.  Then `np.linalg.solve(preconditioner, x0)`, the point at which the
preconditioned minimization starts, is the only point `z0` which `uncondition_x` takes to `x0`.  At
`z0`, every eigenvector of `h` with eigenvalue `λ` is an eigenvector of the conditioned Hessian with
eigenvalue `λ / clipped λ`, where `clipped λ` is `λ` moved into the thresholds, and these are all its
eigenvalues.  When no eigenvalue is moved (in particular, without thresholds) the conditioned Hessian at
`z0` is the identity. -/
theorem C176_conditioned_hessian {eigh : Eigh} (he : EighContract eigh) {o o' : Objective Unit}
    {x0 : List ℝ} (hd : 0 < d) (hx : x0.length = d) {f : (Fin d → ℝ) → ℝ} (hf : ContDiff ℝ 2 f)
    (hval : ∀ y : List ℝ, y.length = d → (o.funFree y () false).2 = .ok (Arr.scalar (f (toVec d y))))
    {evMin evMax : Option ℝ} {h s c : Arr}
    (hr : setObjectivePreconditioner eigh o (some x0) none evMin evMax = (o', .ok (h, s, c))) :
    ∃ z0, npSolve s x0 = .ok z0 ∧ z0.length = d ∧ o'.unconditionX z0 = .ok x0 ∧
      (∀ z, z.length = d → o'.unconditionX z = .ok x0 → z = z0) ∧
      ∃ Hc, (o'.funFreeHessianCond z0 ()).2 = .ok Hc ∧ IsMat Hc d d ∧
        (∀ v lam, toMatrix d d h *ᵥ v = lam • v →
          toMatrix d d Hc *ᵥ v = (lam / clipped evMin evMax lam) • v) ∧
        (∀ mu, IsEigenvalue (toMatrix d d Hc) mu ↔
          ∃ lam, IsEigenvalue (toMatrix d d h) lam ∧ mu = lam / clipped evMin evMax lam) ∧
        ((∀ lam, IsEigenvalue (toMatrix d d h) lam → clipped evMin evMax lam = lam) →
          toMatrix d d Hc = 1) := by
  obtain ⟨h1, h2, h3, w, V, hE, hpos, hs, hc, hsm, hcm⟩ := setObjectivePreconditioner_at he hd hx hf hval hr
  have hsq : ∀ i, Real.sqrt (clipped evMin evMax (w i)) ≠ 0 := fun i => (Real.sqrt_pos.mpr (hpos i)).ne'
  have hdet : (toMatrix d d s).det ≠ 0 := by
    rw [hsm]
    exact spectral_det_ne hE fun i => one_div_ne_zero (hsq i)
  have hun : ∀ z, o'.unconditionX z = s.mulVec z := fun z => by simp only [Objective.unconditionX, h1]
  obtain ⟨z0, e1, e2, e3, e4⟩ := npSolve_unique hs.2 hdet hx
  refine ⟨z0, e1, e2, by rw [hun, e3], fun z hz hz' => e4 z hz (by rw [← hun]; exact hz'), ?_⟩
  have hF := h2 o' (.refl o')
  have hmh : IsMat h d d := by rw [h3]; exact ⟨Arr.ofFn2_WF _ _ _, rfl⟩
  have hH : (o'.funFreeHessian x0 ()).2 = .ok h := by
    rw [Objective.funFreeHessian, o'.deriv_value _ _ _ _ (valueAt_ok_set (hF x0 hx)), agHess_ok hf hF hx hd, h3]
  obtain ⟨hp, hhp⟩ : ∃ hp, h.matmul s = .ok hp := ⟨_, matmul_ok hmh.2 hs.2⟩
  have hsT : s.transpose.shape = [d, d] := by simp [hs.2]
  obtain ⟨m1, m2⟩ := toMatrix_matmul hmh.2 hs.2 hhp
  obtain ⟨Hc, hHc⟩ : ∃ Hc, s.transpose.matmul hp = .ok Hc := ⟨_, matmul_ok hsT m1.2⟩
  obtain ⟨n1, n2⟩ := toMatrix_matmul hsT m1.2 hHc
  have hM : toMatrix d d Hc =
      V * (Matrix.diagonal (fun i => w i / clipped evMin evMax (w i)) * Vᵀ) := by
    rw [n2, m2, toMatrix_transpose hs.2, hsm, IsEigh.conj_transpose, hE.eq', hE.conj_mul, hE.conj_mul]
    have : (fun i => 1 / Real.sqrt (clipped evMin evMax (w i)) * (w i *
        (1 / Real.sqrt (clipped evMin evMax (w i))))) = fun i => w i / clipped evMin evMax (w i) := by
      funext i
      rw [mul_left_comm, one_div_mul_one_div, Real.mul_self_sqrt (hpos i).le, mul_one_div]
    rw [this]
  refine ⟨Hc, ?_, n1, ?_, ?_, ?_⟩
  · simp only [Objective.funFreeHessianCond, h1, Objective.conditionedX, e3, hH, py_ok_bind, hhp, hHc]
  · intro v lam hv
    rw [hM]
    exact hE.apply (fun t => t / clipped evMin evMax t) hv
  · intro mu
    rw [hM, (hE.withDiag fun i => w i / clipped evMin evMax (w i)).eigenvalue_iff]
    constructor
    · rintro ⟨i, rfl⟩
      exact ⟨w i, (hE.eigenvalue_iff _).mpr ⟨i, rfl⟩, rfl⟩
    · rintro ⟨lam, hl, rfl⟩
      obtain ⟨i, rfl⟩ := (hE.eigenvalue_iff _).mp hl
      exact ⟨i, rfl⟩
  · intro hcl
    have : (fun i => w i / clipped evMin evMax (w i)) = fun _ => 1 := by
      funext i
      have h0 := hpos i
      rw [hcl _ ((hE.eigenvalue_iff _).mpr ⟨i, rfl⟩)] at h0 ⊢
      exact div_self h0.ne'
    rw [hM, this, Matrix.diagonal_one, one_mul, hE.right]

/-- An optimizer that makes one step of length `t` against the gradient. -/
def gradientStep (t : ℝ) (x : List ℝ) : Optimizer :=
  .value x fun v => .grad x fun g => .done ⟨List.zipWith (fun a b => a - t * b) x g, v, g⟩

theorem toVec_step {t : ℝ} {x g : List ℝ} (hx : x.length = d) (hg : g.length = d) :
    toVec d (List.zipWith (fun a b => a - t * b) x g) = toVec d x - t • toVec d g := by
  funext i
  have h1 : (i : ℕ) < x.length := by omega
  have h2 : (i : ℕ) < g.length := by omega
  simp [toVec, List.getD_eq_getElem?_getD, List.getElem?_zipWith, h1, h2]

theorem conditioned_grad {p : Objective Unit} {s : Arr} (hp : p.precond = some s) (hs : IsMat s d d)
    {f : (Fin d → ℝ) → ℝ} (hf : ContDiff ℝ 2 f)
    (hF : ∀ y : List ℝ, y.length = d → valueAt (p.fn ()) p.par true y = .ok (Arr.scalar (f (toVec d y))))
    {x0 z0 : List ℝ} (hx : x0.length = d) (hz : s.mulVec z0 = .ok x0) :
    ∃ g, (p.funFreeGradCond z0 ()).2 = .ok g ∧ g.length = d ∧
      toVec d g = (toMatrix d d s)ᵀ *ᵥ gradVec f (toVec d x0) := by
  have hsT : s.transpose.shape = [d, d] := by simp [hs.2]
  obtain ⟨g, hg⟩ : ∃ g, s.transpose.mulVec ((List.range d).map fun j => fderiv ℝ f (toVec d x0) (basis d j)) = .ok g :=
    ⟨_, mulVec_ok hsT (by simp)⟩
  obtain ⟨g1, g2⟩ := toVec_mulVec hsT (by simp) hg
  refine ⟨g, ?_, g1, ?_⟩
  · simp only [Objective.funFreeGradCond, hp, Objective.conditionedX, hz]
    rw [Objective.funFreeGrad, p.deriv_value _ _ _ _ (valueAt_ok_set (hF x0 hx)), agGrad_ok hf hF hx, py_ok_bind]
    exact hg
  · rw [g2, toVec_gradList, toMatrix_transpose hs.2]

/-- **C176** (Newton steps) In the same situation, minimizing from `x0` with the preconditioner and an
optimizer that makes one step of length `t` against the gradient moves `x0` by `-t C⁻¹ g`, where `g` is
the gradient at `x0` and `C` the Hessian with its eigenvalues moved into the thresholds, the third
result of `set_objective_preconditioner`. -/
theorem C176_newton_step {eigh : Eigh} (he : EighContract eigh) {o o' : Objective Unit}
    {x0 : List ℝ} (hd : 0 < d) (hx : x0.length = d) {f : (Fin d → ℝ) → ℝ} (hf : ContDiff ℝ 2 f)
    (hval : ∀ y : List ℝ, y.length = d → (o.funFree y () false).2 = .ok (Arr.scalar (f (toVec d y))))
    {evMin evMax : Option ℝ} {h s c : Arr}
    (hr : setObjectivePreconditioner eigh o (some x0) none evMin evMax = (o', .ok (h, s, c)))
    (t : ℝ) (useHvp disp initLogger : Bool) (printEvery : Option ℕ) {o2 : Objective Unit} {optX : List ℝ}
    {res : OptResult}
    (hm : minimizeObjective useHvp (gradientStep t) o' x0 true disp printEvery initLogger =
      (o2, .ok (optX, res))) :
    optX.length = d ∧ IsUnit (toMatrix d d c) ∧
    toVec d optX = toVec d x0 - t • ((toMatrix d d c)⁻¹ *ᵥ gradVec f (toVec d x0)) := by
  obtain ⟨h1, h2, h3, w, V, hE, hpos, hs, hc, hsm, hcm⟩ := setObjectivePreconditioner_at he hd hx hf hval hr
  have hsq : ∀ i, Real.sqrt (clipped evMin evMax (w i)) ≠ 0 := fun i => (Real.sqrt_pos.mpr (hpos i)).ne'
  have hdet : (toMatrix d d s).det ≠ 0 := by
    rw [hsm]
    exact spectral_det_ne hE fun i => one_div_ne_zero (hsq i)
  obtain ⟨z0, e1, e2, e3, -⟩ := npSolve_unique hs.2 hdet hx
  have hss := startObj_same o' printEvery initLogger
  have hpre : ∀ p, SameObj o' p → p.precond = some s := fun p hp => hp.precond.trans h1
  rw [minimize_cond, hpre _ hss] at hm
  simp only [e1, gradientStep, Optimizer.run] at hm
  set r1 := (startObj o' printEvery initLogger).funFreeCond z0 () disp with hr1
  have hs1 : SameObj o' r1.1 := hss.trans (.funFreeCond _ z0 disp)
  cases hv : r1.2 with
  | error e => rw [hv] at hm; simp at hm
  | ok v =>
    rw [hv] at hm
    simp only at hm
    obtain ⟨g, g1, g2, g3⟩ := conditioned_grad (hpre _ hs1) hs hf (h2 _ hs1) hx e3
    rw [g1] at hm
    simp only at hm
    have hs2 : SameObj o' (r1.1.funFreeGradCond z0 ()).1 := hs1.trans (.funFreeGradCond _ z0)
    simp only [Objective.unconditionX, hpre _ hs2] at hm
    have hl : (List.zipWith (fun a b => a - t * b) z0 g).length = d := by simp [e2, g2]
    obtain ⟨y, hy⟩ : ∃ y, s.mulVec (List.zipWith (fun a b => a - t * b) z0 g) = .ok y := ⟨_, mulVec_ok hs.2 hl⟩
    obtain ⟨y1, y2⟩ := toVec_mulVec hs.2 hl hy
    rw [hy] at hm
    simp only [Prod.mk.injEq, Except.ok.injEq] at hm
    obtain ⟨-, rfl, -⟩ := hm
    have hci : toMatrix d d c * (toMatrix d d s * (toMatrix d d s)ᵀ) = 1 := by
      rw [hcm, hsm, IsEigh.conj_transpose, hE.conj_mul, hE.conj_mul]
      have : (fun i => clipped evMin evMax (w i) * (1 / Real.sqrt (clipped evMin evMax (w i)) *
          (1 / Real.sqrt (clipped evMin evMax (w i))))) = fun _ => 1 := by
        funext i
        have h4 := Real.mul_self_sqrt (hpos i).le
        have h5 := hsq i
        field_simp
        rw [sq, h4]
      rw [this, Matrix.diagonal_one, one_mul, hE.right]
    refine ⟨y1, ?_, ?_⟩
    · rw [hcm, Matrix.isUnit_iff_isUnit_det]
      exact isUnit_iff_ne_zero.mpr (spectral_det_ne hE fun i => (hpos i).ne')
    · rw [y2, toVec_step e2 g2, Matrix.mulVec_sub, Matrix.mulVec_smul, g3, Matrix.mulVec_mulVec,
        ← Matrix.inv_eq_right_inv hci, ← (toVec_mulVec hs.2 e2 e3).2]

/-! ### Quadratic objectives -/

/-- `f(u) = uᵀ A u / 2 + bᵀ u + k` with a symmetric matrix `A`. -/
structure IsQuadraticFn (f : (Fin d → ℝ) → ℝ) (A : Matrix (Fin d) (Fin d) ℝ) (b : Fin d → ℝ) (k : ℝ) : Prop where
  symm : Aᵀ = A
  eq : ∀ u, f u = u ⬝ᵥ (A *ᵥ u) / 2 + b ⬝ᵥ u + k

namespace IsQuadraticFn

variable {f : (Fin d → ℝ) → ℝ} {A : Matrix (Fin d) (Fin d) ℝ} {b : Fin d → ℝ} {k : ℝ}

theorem swap (h : IsQuadraticFn f A b k) (x u : Fin d → ℝ) : x ⬝ᵥ (A *ᵥ u) = u ⬝ᵥ (A *ᵥ x) := by
  rw [dotProduct_comm x, Matrix.dotProduct_mulVec u, ← Matrix.mulVec_transpose, h.symm]

theorem along (h : IsQuadraticFn f A b k) (x u : Fin d → ℝ) (t : ℝ) :
    f (x + t • u) = f x + t * (u ⬝ᵥ (A *ᵥ x + b)) + t ^ 2 * (u ⬝ᵥ (A *ᵥ u) / 2) := by
  rw [h.eq, h.eq]
  simp only [Matrix.mulVec_add, Matrix.mulVec_smul, add_dotProduct, dotProduct_add, smul_dotProduct,
    dotProduct_smul, smul_eq_mul, h.swap x u]
  rw [dotProduct_comm b u]
  ring

theorem smooth (h : IsQuadraticFn f A b k) : ContDiff ℝ 2 f := by
  have hF : f = fun z => (∑ i, z i * ∑ j, A i j * z j) / 2 + (∑ i, b i * z i) + k := by
    funext z
    exact h.eq z
  have h1 : ∀ i, ContDiff ℝ 2 fun z : Fin d → ℝ => z i := fun i => contDiff_apply ℝ ℝ i
  rw [hF]
  refine (ContDiff.add (ContDiff.div_const ?_ 2) ?_).add contDiff_const
  · exact ContDiff.sum fun i _ => (h1 i).mul (ContDiff.sum fun j _ => contDiff_const.mul (h1 j))
  · exact ContDiff.sum fun i _ => contDiff_const.mul (h1 i)

theorem line (x u : Fin d → ℝ) (t : ℝ) : HasDerivAt (fun t : ℝ => x + t • u) u t := by
  simpa using ((hasDerivAt_id t).smul_const u).const_add x

theorem fderiv_eq (h : IsQuadraticFn f A b k) (x u : Fin d → ℝ) : fderiv ℝ f x u = u ⬝ᵥ (A *ᵥ x + b) := by
  have h1 := (h.smooth.differentiable (by norm_num) (x + (0 : ℝ) • u)).hasFDerivAt.comp_hasDerivAt 0 (line x u 0)
  have h2 : HasDerivAt (fun t : ℝ => f x + t * (u ⬝ᵥ (A *ᵥ x + b)) + t ^ 2 * (u ⬝ᵥ (A *ᵥ u) / 2))
      (1 * (u ⬝ᵥ (A *ᵥ x + b)) + (2 : ℕ) * (0 : ℝ) ^ (2 - 1) * (u ⬝ᵥ (A *ᵥ u) / 2)) 0 :=
    (((hasDerivAt_id' (0 : ℝ)).mul_const _).const_add (f x)).add ((hasDerivAt_pow 2 0).mul_const _)
  have h3 : (f ∘ fun t : ℝ => x + t • u) = fun t : ℝ => f x + t * (u ⬝ᵥ (A *ᵥ x + b)) + t ^ 2 * (u ⬝ᵥ (A *ᵥ u) / 2) := by
    funext t
    exact h.along x u t
  rw [h3] at h1
  have h4 := h1.unique h2
  simpa using h4

theorem fderiv2_eq (h : IsQuadraticFn f A b k) (x u v : Fin d → ℝ) :
    fderiv ℝ (fderiv ℝ f) x u v = v ⬝ᵥ (A *ᵥ u) := by
  have hdd : DifferentiableAt ℝ (fderiv ℝ f) (x + (0 : ℝ) • u) :=
    (h.smooth.fderiv_right (m := 1) (by norm_num)).differentiable (by norm_num) _
  have h1 := (hdd.hasFDerivAt.clm_apply (hasFDerivAt_const v (x + (0 : ℝ) • u))).comp_hasDerivAt 0 (line x u 0)
  have h2 : ((fun y => fderiv ℝ f y v) ∘ fun t : ℝ => x + t • u) =
      fun t => v ⬝ᵥ (A *ᵥ x + b) + t * (v ⬝ᵥ (A *ᵥ u)) := by
    funext t
    simp only [Function.comp_apply, h.fderiv_eq, Matrix.mulVec_add, Matrix.mulVec_smul, dotProduct_add,
      dotProduct_smul, smul_eq_mul]
    ring
  have h3 : HasDerivAt (fun t : ℝ => v ⬝ᵥ (A *ᵥ x + b) + t * (v ⬝ᵥ (A *ᵥ u))) (1 * (v ⬝ᵥ (A *ᵥ u))) 0 :=
    ((hasDerivAt_id' (0 : ℝ)).mul_const _).const_add _
  have h4 := h2 ▸ h1
  have h5 := h4.unique h3
  simpa using h5

theorem gradVec_eq (h : IsQuadraticFn f A b k) (x : Fin d → ℝ) : gradVec f x = A *ᵥ x + b := by
  funext j
  rw [gradVec, h.fderiv_eq, single_dotProduct, one_mul]

theorem hess_eq (h : IsQuadraticFn f A b k) (x : Fin d → ℝ) :
    toMatrix d d (Arr.ofFn2 d d fun i j => fderiv ℝ (fderiv ℝ f) x (basis d j) (basis d i)) = A := by
  ext i j
  rw [toMatrix_ofFn2, basis_fin, basis_fin, h.fderiv2_eq]
  simp

end IsQuadraticFn

/-- **C176** (quadratic objectives) When `f` is quadratic, and `set_objective_preconditioner` returns
without thresholds at some point `x0`, then one step of length one against the gradient with the
preconditioner ends at the only minimizer of `f`, wherever `x0` is. -/
theorem C176_quadratic {eigh : Eigh} (he : EighContract eigh) {o o' : Objective Unit}
    {x0 : List ℝ} (hd : 0 < d) (hx : x0.length = d) {f : (Fin d → ℝ) → ℝ} {A : Matrix (Fin d) (Fin d) ℝ}
    {b : Fin d → ℝ} {k : ℝ} (hf : IsQuadraticFn f A b k)
    (hval : ∀ y : List ℝ, y.length = d → (o.funFree y () false).2 = .ok (Arr.scalar (f (toVec d y))))
    {h s c : Arr}
    (hr : setObjectivePreconditioner eigh o (some x0) none none none = (o', .ok (h, s, c)))
    (useHvp disp initLogger : Bool) (printEvery : Option ℕ) {o2 : Objective Unit} {optX : List ℝ}
    {res : OptResult}
    (hm : minimizeObjective useHvp (gradientStep 1) o' x0 true disp printEvery initLogger =
      (o2, .ok (optX, res))) :
    ∀ u, u ≠ toVec d optX → f (toVec d optX) < f u := by
  obtain ⟨-, hu, hn⟩ := C176_newton_step he hd hx hf.smooth hval hr 1 useHvp disp initLogger printEvery hm
  obtain ⟨h1, h2, h3, w, V, hE, hpos, hs, hc, hsm, hcm⟩ := setObjectivePreconditioner_at he hd hx hf.smooth hval hr
  have hA : toMatrix d d h = A := by rw [h3]; exact hf.hess_eq _
  have hcA : toMatrix d d c = A := by
    rw [hcm, ← hA]
    exact hE.eq'.symm
  rw [hcA] at hu hn
  have hdet : IsUnit A.det := (Matrix.isUnit_iff_isUnit_det _).mp hu
  rw [one_smul, hf.gradVec_eq] at hn
  have h0 : A *ᵥ toVec d optX + b = 0 := by
    rw [hn, Matrix.mulVec_sub, Matrix.mulVec_mulVec, Matrix.mul_nonsing_inv _ hdet, Matrix.one_mulVec]
    abel
  intro u hne
  have h4 := hf.along (toVec d optX) (u - toVec d optX) 1
  rw [one_smul, add_sub_cancel, h0, dotProduct_zero] at h4
  set q := u - toVec d optX with hq
  have hq0 : Vᵀ *ᵥ q ≠ 0 := by
    intro hz
    apply sub_ne_zero.mpr hne
    rw [← hq, ← Matrix.one_mulVec q, ← hE.right, ← Matrix.mulVec_mulVec, hz, Matrix.mulVec_zero]
  have h5 : q ⬝ᵥ (A *ᵥ q) = ∑ i, w i * ((Vᵀ *ᵥ q) i) ^ 2 := by
    have e : A = V * (Matrix.diagonal w * Vᵀ) := by rw [← hA]; exact hE.eq'
    rw [e, ← Matrix.mulVec_mulVec, ← Matrix.mulVec_mulVec, Matrix.dotProduct_mulVec, ← Matrix.mulVec_transpose,
      dotProduct]
    refine Finset.sum_congr rfl fun i _ => ?_
    rw [Matrix.mulVec_diagonal]
    ring
  obtain ⟨i, hi⟩ := Function.ne_iff.mp hq0
  have h6 : 0 < q ⬝ᵥ (A *ᵥ q) := by
    rw [h5]
    refine Finset.sum_pos' (fun j _ => mul_nonneg (hpos j).le (sq_nonneg _)) ⟨i, Finset.mem_univ i, ?_⟩
    exact mul_pos (hpos i) (sq_pos_of_ne_zero hi)
  rw [h4]
  linarith

/-! ### An example -/

/-- An objective that depends on the free vector of `exDict`, which has three entries, through `g`. -/
def exFreeObj (g : (Fin 3 → ℝ) → ℝ) : Objective Unit :=
  Objective.new exDict fun _ q => do
    let v ← q.getFree
    .ok (Arr.scalar (g (toVec 3 v)))

theorem exFreeObj_value (g : (Fin 3 → ℝ) → ℝ) (y : List ℝ) (hy : y.length = 3) :
    ((exFreeObj g).funFree y () false).2 = .ok (Arr.scalar (g (toVec 3 y))) := by
  obtain ⟨eigh, he⟩ := exists_eigh
  have hw := (exDict_built eigh).wf he
  have hy' : y.length = exDict.freeSize := by rw [exDict_freeSize]; exact hy
  rw [Objective.funFree_value]
  unfold valueAt
  simp only [setPar, if_true]
  have e : (exFreeObj g).par = exDict := rfl
  rw [e, exDict.setFree_ok hw y hy']
  simp only
  rw [Param.mark_plain _ (Param.freeP_plain _ _)]
  simp only [exFreeObj, Objective.new]
  rw [exDict.getFree_freeP hw exDict_hasParams y hy']
  rfl

/-- The hypotheses of C176 are met: the objective `(u₀² + 2 u₁² + 3 u₂²) / 2 + u₀`, with a
preconditioner computed at `(5, 6, 7)`, and a step from there; and the same with thresholds. -/
example : ∃ (eigh : Eigh) (f : (Fin 3 → ℝ) → ℝ) (A : Matrix (Fin 3) (Fin 3) ℝ) (b : Fin 3 → ℝ),
    EighContract eigh ∧ IsQuadraticFn f A b 0 ∧
    (∀ y : List ℝ, y.length = 3 → ((exFreeObj f).funFree y () false).2 = .ok (Arr.scalar (f (toVec 3 y)))) ∧
    (∃ o' h s c, setObjectivePreconditioner eigh (exFreeObj f) (some [5, 6, 7]) none none none =
        (o', .ok (h, s, c)) ∧
      ∃ o2 optX res, minimizeObjective true (gradientStep 1) o' [5, 6, 7] true false none true =
        (o2, .ok (optX, res))) ∧
    ∃ o' h s c, setObjectivePreconditioner eigh (exFreeObj f) (some [5, 6, 7]) none (some 2) (some 2) =
        (o', .ok (h, s, c)) := by
  obtain ⟨eigh, he⟩ := exists_eigh
  set A : Matrix (Fin 3) (Fin 3) ℝ := Matrix.diagonal ![1, 2, 3] with hA
  set b : Fin 3 → ℝ := ![1, 0, 0] with hb
  set f : (Fin 3 → ℝ) → ℝ := fun u => u ⬝ᵥ (A *ᵥ u) / 2 + b ⬝ᵥ u + 0 with hf
  have hq : IsQuadraticFn f A b 0 := ⟨by rw [hA, Matrix.diagonal_transpose], fun u => rfl⟩
  have hval := exFreeObj_value f
  have hF : ∀ y : List ℝ, y.length = 3 → valueAt ((exFreeObj f).fn ()) (exFreeObj f).par true y =
      .ok (Arr.scalar (f (toVec 3 y))) := fun y hy => by
    rw [← Objective.funFree_value]
    exact hval y hy
  have hH : ((exFreeObj f).funFreeHessian [5, 6, 7] ()).2 = .ok (Arr.ofFn2 3 3 fun i j =>
      fderiv ℝ (fderiv ℝ f) (toVec 3 [5, 6, 7]) (basis 3 j) (basis 3 i)) := by
    rw [Objective.funFreeHessian, Objective.deriv_value _ _ _ _ _ (valueAt_ok_set (hF [5, 6, 7] rfl)),
      agHess_ok hq.smooth hF rfl (by norm_num)]
  set h := Arr.ofFn2 3 3 fun i j => fderiv ℝ (fderiv ℝ f) (toVec 3 [5, 6, 7]) (basis 3 j) (basis 3 i) with hh
  have hm : IsMat h 3 3 := ⟨Arr.ofFn2_WF _ _ _, rfl⟩
  have hev : ∀ lam, IsEigenvalue (symPart (toMatrix 3 3 h)) lam → 0 < lam := by
    rintro lam ⟨v, hv0, hv⟩
    rw [hh, hq.hess_eq, hA] at hv
    obtain ⟨i, hi⟩ := Function.ne_iff.mp hv0
    have h1 := congrFun hv i
    have h2 : symPart (Matrix.diagonal ![(1 : ℝ), 2, 3]) = Matrix.diagonal ![1, 2, 3] := by
      unfold symPart
      rw [Matrix.diagonal_transpose, ← two_smul ℝ, smul_smul]
      norm_num
    rw [h2, Matrix.mulVec_diagonal, Pi.smul_apply, smul_eq_mul] at h1
    have h3 := mul_right_cancel₀ hi h1
    rw [← h3]
    fin_cases i <;> simp
  have hset : ∀ evMin evMax r, getSymMatrixInvSqrt eigh h evMin evMax = .ok r →
      setObjectivePreconditioner eigh (exFreeObj f) (some [5, 6, 7]) none evMin evMax =
        ({ ((exFreeObj f).funFreeHessian [5, 6, 7] ()).1 with precond := some r.1 }, .ok (h, r.1, r.2)) := by
    intro evMin evMax r hr
    unfold setObjectivePreconditioner
    simp only [hH, hr]
  obtain ⟨⟨s, c⟩, hr⟩ := (C65_inverse_square_root he hm none none).1.mp fun lam hl => hev lam hl
  refine ⟨eigh, f, A, b, he, hq, hval, ⟨_, h, s, c, hset _ _ _ hr, ?_⟩, ?_⟩
  · set o' : Objective Unit := { ((exFreeObj f).funFreeHessian [5, 6, 7] ()).1 with precond := some s } with ho'
    obtain ⟨h1, h2, h3, w, V, hE, hpos, hs, hc, hsm, hcm⟩ :=
      setObjectivePreconditioner_at he (by norm_num) (show [(5 : ℝ), 6, 7].length = 3 from rfl) hq.smooth hval
        (hset _ _ _ hr)
    have hdet : (toMatrix 3 3 s).det ≠ 0 := by
      rw [hsm]
      exact spectral_det_ne hE fun i => one_div_ne_zero (Real.sqrt_pos.mpr (hpos i)).ne'
    obtain ⟨z0, e1, e2, e3, -⟩ := npSolve_unique hs.2 hdet (show [(5 : ℝ), 6, 7].length = 3 from rfl)
    have hss := startObj_same o' none true
    rw [minimize_cond, show (startObj o' none true).precond = some s from hss.precond]
    simp only [e1, gradientStep, Optimizer.run]
    have hv : ((startObj o' none true).funFreeCond z0 () false).2 = .ok (Arr.scalar (f (toVec 3 [5, 6, 7]))) := by
      simp only [Objective.funFreeCond, show (startObj o' none true).precond = some s from hss.precond,
        Objective.conditionedX, e3]
      rw [Objective.funFree_value]
      exact h2 _ hss _ rfl
    have hs1 : SameObj o' ((startObj o' none true).funFreeCond z0 () false).1 :=
      hss.trans (.funFreeCond _ z0 false)
    obtain ⟨g, g1, g2, -⟩ := conditioned_grad (hs1.precond : _ = some s) hs hq.smooth (h2 _ hs1)
      (show [(5 : ℝ), 6, 7].length = 3 from rfl) e3
    rw [hv]
    simp only [g1]
    have hs2 := hs1.trans (.funFreeGradCond _ z0)
    simp only [Objective.unconditionX, show (_ : Option Arr) = some s from hs2.precond]
    rw [mulVec_ok hs.2 (show (List.zipWith (fun a b => a - 1 * b) z0 g).length = 3 by simp [e2, g2])]
    exact ⟨_, _, _, rfl⟩
  · obtain ⟨r, hr'⟩ := C65_positive_threshold he hm (show (0 : ℝ) < 2 by norm_num) (some 2)
      (by rintro M ⟨⟩; exact le_rfl)
    exact ⟨_, h, r.1, r.2, hset _ _ _ hr'⟩

end

end LRVB
