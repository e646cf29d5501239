import Verif.Lemmas.Embed
import Verif.Props.FullRank
import Verif.Props.Sensitivity
import Verif.Props.TaylorFlags

/-!
# C159: linear response does not depend on the parameterization
-/

namespace LRVB

open scoped ContDiff Matrix Topology
open Flt Taylor

noncomputable section

variable {n m : ℕ}

/-- A smooth list function of full rank everywhere, as a function between coordinate spaces. -/
theorem exists_immersion {G : List ℝ → List ℝ} (hs : Smooth n n G)
    (hr : ∀ x : List ℝ, x.length = n → RankOK n n G x) :
    ∃ Γ : (Fin n → ℝ) → Fin n → ℝ, ContDiff ℝ 2 Γ ∧
      (∀ y : List ℝ, y.length = n → toVec n (G y) = Γ (toVec n y)) ∧
      ∀ u, Function.Injective (fderiv ℝ Γ u) := by
  obtain ⟨Γ, h1, h2, h3⟩ := hs.exists_fun
  have hc : ContDiff ℝ 2 Γ := contDiff_pi.mpr h1
  refine ⟨Γ, hc, h2, fun u => ?_⟩
  obtain ⟨x, hx, rfl⟩ := exists_toVec u
  refine (LinearMap.ker_eq_bot (f := (fderiv ℝ Γ (toVec n x) : (Fin n → ℝ) →ₗ[ℝ] (Fin n → ℝ)))).mp ?_
  rw [LinearMap.ker_eq_bot']
  intro w hw
  have key := hr x hx (fun j => if hj : j < n then w ⟨j, hj⟩ else 0) (fun i hi => by
    rw [Finset.sum_range]
    have e : ∀ j : Fin n, D1 G x i j = fderiv ℝ Γ (toVec n x) (Pi.single j 1) ⟨i, hi⟩ := by
      intro j
      rw [Smooth.D1_eq (h1 ⟨i, hi⟩) (h3 i hi) hx j]
      have := hasFDerivAt_pi'.mp (hc.differentiable (by norm_num) (toVec n x)).hasFDerivAt ⟨i, hi⟩
      rw [this.fderiv]
      rfl
    simp only [e, Fin.is_lt, dite_true, Fin.eta]
    have := congrFun hw ⟨i, hi⟩
    have e2 := clm_apply_sum ((ContinuousLinearMap.proj ⟨i, hi⟩).comp (fderiv ℝ Γ (toVec n x))) w
    simp only [ContinuousLinearMap.comp_apply, ContinuousLinearMap.proj_apply] at e2
    rw [← show fderiv ℝ Γ (toVec n x) w ⟨i, hi⟩ = 0 from this, e2]
    exact Finset.sum_congr rfl fun j _ => mul_comm _ _)
  funext j
  simpa using key j j.2

/-- The local inverse. -/
theorem exists_local_inverse {Γ : (Fin n → ℝ) → Fin n → ℝ} (hc : ContDiff ℝ 2 Γ) (u : Fin n → ℝ)
    (hinj : Function.Injective (fderiv ℝ Γ u)) :
    ∃ ψ : (Fin n → ℝ) → Fin n → ℝ, DifferentiableAt ℝ ψ (Γ u) ∧ ψ (Γ u) = u ∧
      ∀ᶠ z in 𝓝 (Γ u), Γ (ψ z) = z := by
  have hd := hc.contDiffAt.hasStrictFDerivAt (x := u) (by norm_num)
  let L : (Fin n → ℝ) ≃L[ℝ] (Fin n → ℝ) :=
    (LinearEquiv.ofInjectiveEndo (fderiv ℝ Γ u : (Fin n → ℝ) →ₗ[ℝ] (Fin n → ℝ))
      hinj).toContinuousLinearEquiv
  have hL : (L : (Fin n → ℝ) →L[ℝ] (Fin n → ℝ)) = fderiv ℝ Γ u := by
    ext w; rfl
  rw [← hL] at hd
  exact ⟨hd.localInverse Γ L u, hd.to_localInverse.hasFDerivAt.differentiableAt,
    hd.localInverse_apply_image, hd.eventually_right_inverse⟩

/-- A critical point in one parameterization is one in the other. -/
theorem crit_transfer {Γ Δ : (Fin n → ℝ) → Fin n → ℝ} (hc : ContDiff ℝ 2 Γ) (hd : ContDiff ℝ 2 Δ)
    {a b : Fin n → ℝ} (hinj : Function.Injective (fderiv ℝ Γ a)) (hab : Γ a = Δ b)
    {g : (Fin n → ℝ) → ℝ} (hg : HasFDerivAt (fun u => g (Γ u)) (0 : (Fin n → ℝ) →L[ℝ] ℝ) a) :
    fderiv ℝ (fun u => g (Δ u)) b = 0 := by
  obtain ⟨ψ, h1, h2, h3⟩ := exists_local_inverse hc a hinj
  rw [hab] at h1 h2 h3
  have hΔ := (hd.differentiable (by norm_num) b).hasFDerivAt
  have hχ := HasFDerivAt.comp b h1.hasFDerivAt hΔ
  rw [← h2] at hg
  have h4 := HasFDerivAt.comp (f := ψ ∘ Δ) b hg hχ
  have h5 : (fun u => g (Δ u)) =ᶠ[𝓝 b] (fun u => g (Γ u)) ∘ (ψ ∘ Δ) := by
    have := (hd.continuous.continuousAt (x := b)).eventually h3
    filter_upwards [this] with u hu
    simp only [Function.comp_apply]
    rw [hu]
  have h6 := (h4.congr_of_eventuallyEq h5).fderiv
  rw [h6]
  simp

/-- `F` is the function `f` of the vector that the input parameter holds, and of the hyperparameter. -/
def OfVector (p : Param) (f : List ℝ → (Fin m → ℝ) → ℝ) (F : (Fin n → ℝ) × (Fin m → ℝ) → ℝ) : Prop :=
  ∀ (y z : List ℝ) (w : Fin m → ℝ), y.length = n → p.freeToVectorVal y = .ok z →
    F (toVec n y, w) = f z w

/-- The first `r` outputs are the function `k` of the vector that the input parameter holds. -/
def OutputOfVector (p : Param) (r : ℕ) (k : List ℝ → ℕ → ℝ) (K : (Fin n → ℝ) → ℕ → ℝ) : Prop :=
  ∀ (y z : List ℝ), y.length = n → p.freeToVectorVal y = .ok z → ∀ i < r, K (toVec n y) i = k z i

theorem exists_chart {p : Param} (hw : p.WF) (hp : p.HasParams) (hf : p.freeSize = n) (hv : p.vecSize = n) :
    ∃ Γ : (Fin n → ℝ) → Fin n → ℝ, ContDiff ℝ 2 Γ ∧ (∀ u, Function.Injective (fderiv ℝ Γ u)) ∧
      ∀ y : List ℝ, y.length = n → p.freeToVectorVal y = .ok (List.ofFn (Γ (toVec n y))) := by
  have hs := p.smooth_ftvP hw
  have hr : ∀ x : List ℝ, x.length = p.freeSize → RankOK p.freeSize p.vecSize p.ftvP x :=
    fun x hx => p.rank_ftvP hw hx
  rw [hf, hv] at hs hr
  obtain ⟨Γ, h1, h2, h3⟩ := exists_immersion hs hr
  refine ⟨Γ, h1, h3, fun y hy => ?_⟩
  obtain ⟨a, b⟩ := p.freeToVectorVal_ok hw hp y (hy.trans hf.symm)
  rw [a, ← h2 y hy, ofFn_toVec (b.trans hv)]

/-- **C159** Two `ParametricSensitivity` objects, for input parameters `p` and `q` that parameterize the
same vector differently (other bounds, another diagonal bound, another grouping), each with as many
free values as vector entries.  Objective and outputs are the same functions of the vector, and both
start from the same stationary vector.  Then `get_doutput_dhyper` is the same. -/
theorem C159_parameterization {F G F' G' : (Fin n → ℝ) × (Fin m → ℝ) → ℝ} {K K' : (Fin n → ℝ) → ℕ → ℝ}
    {eigh : Eigh} {objFn objFn' : Param → Param → Py Arr} {p q outputPar outputPar' hyperPar hyperPar' : Param}
    {conv conv' : Param → Param → Param × Option PyErr} {optInput optInput' : Option (List ℝ)}
    {hyperFn hyperFn' : Option (Param → Param → Py Arr)} {x x' e : List ℝ}
    (hS : SensSetting F G K eigh objFn p outputPar hyperPar conv optInput hyperFn x e)
    (hS' : SensSetting F' G' K' eigh objFn' q outputPar' hyperPar' conv' optInput' hyperFn' x' e)
    (hbp : Built eigh p) (hbq : Built eigh q) (hpp : p.HasParams) (hqq : q.HasParams)
    (hfp : p.freeSize = n) (hvp : p.vecSize = n) (hfq : q.freeSize = n) (hvq : q.vecSize = n)
    (hr : outputPar.vecSize = outputPar'.vecSize)
    (f : List ℝ → (Fin m → ℝ) → ℝ) (k : List ℝ → ℕ → ℝ) (hF : OfVector p f F) (hF' : OfVector q f F')
    (hK : OutputOfVector p outputPar.vecSize k K) (hK' : OutputOfVector q outputPar.vecSize k K')
    (hpc : PositiveCurvature F (toVec n x) (toVec m e)) (hpc' : PositiveCurvature F' (toVec n x') (toVec m e))
    (hcrit : fderiv ℝ (fun u => F (u, toVec m e)) (toVec n x) = 0)
    (hv : p.freeToVectorVal x = q.freeToVectorVal x') :
    ∃ S S' J J', Sens.new objFn p outputPar hyperPar conv optInput none hyperFn = .ok S ∧
      Sens.new objFn' q outputPar' hyperPar' conv' optInput' none hyperFn' = .ok S' ∧
      S.doutputDhyper = .ok J ∧ S'.doutputDhyper = .ok J' ∧ IsMat J outputPar.vecSize m ∧
      IsMat J' outputPar.vecSize m ∧ ∀ i < outputPar.vecSize, ∀ j < m, J.at2 i j = J'.at2 i j := by
  obtain ⟨S, s1, -, J, s2, s3, s4⟩ := C51_parametric_sensitivity hS hpc
  obtain ⟨S', t1, -, J', t2, t3, t4⟩ := C51_parametric_sensitivity hS' hpc'
  refine ⟨S, S', J, J', s1, t1, s2, t2, s3, hr ▸ t3, fun i hi j hj => ?_⟩
  obtain ⟨Γ, g1, g2, g3⟩ := exists_chart (hbp.wf hS.contract) hpp hfp hvp
  obtain ⟨Δ, d1, d2, d3⟩ := exists_chart (hbq.wf hS.contract) hqq hfq hvq
  have hx0 : Γ (toVec n x) = Δ (toVec n x') := by
    rw [g3 x hS.lenX, d3 x' hS'.lenX] at hv
    exact List.ofFn_injective (Except.ok.inj hv)
  have hFΓ : ∀ u w, F (u, w) = f (List.ofFn (Γ u)) w := by
    intro u w
    obtain ⟨y, hy, rfl⟩ := exists_toVec u
    exact hF y _ w hy (g3 y hy)
  have hFΔ : ∀ u w, F' (u, w) = f (List.ofFn (Δ u)) w := by
    intro u w
    obtain ⟨y, hy, rfl⟩ := exists_toVec u
    exact hF' y _ w hy (d3 y hy)
  have hKΓ : ∀ u, K u i = k (List.ofFn (Γ u)) i := by
    intro u
    obtain ⟨y, hy, rfl⟩ := exists_toVec u
    exact hK y _ hy (g3 y hy) i hi
  have hKΔ : ∀ u, K' u i = k (List.ofFn (Δ u)) i := by
    intro u
    obtain ⟨y, hy, rfl⟩ := exists_toVec u
    exact hK' y _ hy (d3 y hy) i hi
  obtain ⟨opt, o1, o2, o3, -⟩ := C51_optimum_exists hS.smoothF x e hcrit hpc
  obtain ⟨ψ, p1, p2, p3⟩ := exists_local_inverse d1 (toVec n x') (d2 _)
  rw [← hx0] at p1 p2 p3
  have hcon : ContinuousAt (fun w => Γ (opt w)) (toVec m e) :=
    ContinuousAt.comp (g := Γ) g1.continuous.continuousAt o1.continuousAt
  have hnear : ∀ᶠ w in 𝓝 (toVec m e), Δ (ψ (Γ (opt w))) = Γ (opt w) := by
    have h := p3
    rw [← o2] at h
    exact hcon.eventually h
  have hopt' : OptimumMap F' (toVec m e) fun w => ψ (Γ (opt w)) := by
    filter_upwards [o3, hnear] with w hw1 hw2
    have hd : HasFDerivAt (fun u => F (u, w)) (0 : (Fin n → ℝ) →L[ℝ] ℝ) (opt w) := by
      rw [← hw1]
      exact ((contDiff_left hS.smoothF w).differentiable (by norm_num) _).hasFDerivAt
    have h1 : (fun u => F (u, w)) = fun u => f (List.ofFn (Γ u)) w := by funext u; exact hFΓ u w
    have h2 : (fun u => F' (u, w)) = fun u => f (List.ofFn (Δ u)) w := by funext u; exact hFΔ u w
    rw [h1] at hd
    rw [h2]
    exact crit_transfer (g := fun z => f (List.ofFn z) w) g1 d1 (g2 _) hw2.symm hd
  have hψc : ContinuousAt (fun w => ψ (Γ (opt w))) (toVec m e) :=
    ContinuousAt.comp (g := ψ) (by rw [o2]; exact p1.continuousAt) hcon
  obtain ⟨B, b1, b2⟩ := s4 opt o1.continuousAt o2 o3 i hi
  obtain ⟨B', b1', b2'⟩ := t4 _ hψc (by rw [o2, p2]) hopt' i (hr ▸ hi)
  have heq : (fun w => K (opt w) i) =ᶠ[𝓝 (toVec m e)] fun w => K' (ψ (Γ (opt w))) i := by
    filter_upwards [hnear] with w hw
    rw [hKΓ, hKΔ, hw]
  have := b1.unique (b1'.congr_of_eventuallyEq heq)
  rw [b2 ⟨j, hj⟩, b2' ⟨j, hj⟩, this]

/-- The linear algebra of a change of parameterization at a stationary point. -/
theorem sandwich {a b : ℕ} (hab : a = b) {J : Matrix (Fin b) (Fin a) ℝ} {H : Matrix (Fin b) (Fin b) ℝ}
    {M : Matrix (Fin a) (Fin a) ℝ} (hM : M = Jᵀ * H * J) (hJ : Function.Injective J.mulVec)
    (hH : IsUnit H.det) : IsUnit M.det ∧ J * M⁻¹ * Jᵀ = H⁻¹ := by
  subst hab hM
  have hJu : IsUnit J.det := by
    rw [← Matrix.isUnit_iff_isUnit_det]
    exact Matrix.mulVec_injective_iff_isUnit.mp hJ
  refine ⟨by rw [Matrix.det_mul, Matrix.det_mul, Matrix.det_transpose]; exact (hJu.mul hH).mul hJu, ?_⟩
  have hJt : IsUnit Jᵀ.det := by rwa [Matrix.det_transpose]
  rw [Matrix.mul_inv_rev, Matrix.mul_inv_rev, Matrix.mul_assoc, Matrix.mul_assoc, Matrix.mul_assoc,
    Matrix.nonsing_inv_mul _ hJt, Matrix.mul_one, ← Matrix.mul_assoc, Matrix.mul_nonsing_inv _ hJu,
    Matrix.one_mul]

/-- **C159** (by hand) Linear response covariances computed from the free Hessian that
`convert_vector_to_free_hessian` returns and the Jacobian of the outputs in the free vector are those
computed from the vector Hessian and the Jacobian of the outputs in the vector: at a stationary point,
with an invertible vector Hessian and as many free values as vector entries, `(A J) M⁻¹ (A J)ᵀ` is
`A H⁻¹ Aᵀ` for every matrix `A` of derivatives of outputs. -/
theorem C159_converted_hessian {eigh : Eigh} (he : EighContract eigh) (p : Param) (hb : Built eigh p)
    (hp : p.HasParams) (hv : 0 < p.vecSize) (hs : p.freeSize = p.vecSize) (x : List ℝ)
    (hx : x.length = p.freeSize) (grad : List ℝ) (hgl : grad.length = p.vecSize)
    (hg : ∀ i < p.vecSize, grad.getD i 0 = 0) (H : Arr) (hH : IsMat H p.vecSize p.vecSize)
    (hu : IsUnit (toMatrix p.vecSize p.vecSize H).det) :
    ∃ p' M p'' C, p.convertHessian x grad H = (p', .ok M) ∧ IsMat M p.freeSize p.freeSize ∧
      p.jac x = (p'', .ok C) ∧ C.nr = p.vecSize ∧ C.nc = p.freeSize ∧
      IsUnit (toMatrix p.freeSize p.freeSize M).det ∧
      ∀ (r : ℕ) (A : Matrix (Fin r) (Fin p.vecSize) ℝ) (J : Matrix (Fin p.vecSize) (Fin p.freeSize) ℝ),
        (∀ i j, J i j = C.toDense i j) →
        A * J * (toMatrix p.freeSize p.freeSize M)⁻¹ * (A * J)ᵀ =
          A * (toMatrix p.vecSize p.vecSize H)⁻¹ * Aᵀ := by
  have hw := hb.wf he
  obtain ⟨p', M, h1, h2, h3⟩ := p.convertHessian_ok hw hp hv x hx grad hgl H hH
  obtain ⟨p'', C, c1, c2⟩ := p.jac_ok hw hp x hx
  let J : Matrix (Fin p.vecSize) (Fin p.freeSize) ℝ := Matrix.of fun i j => D1 p.ftvP x i j
  have hM : toMatrix p.freeSize p.freeSize M = Jᵀ * toMatrix p.vecSize p.vecSize H * J := by
    ext a b
    rw [toMatrix, Matrix.of_apply, h3 a a.2 b b.2, Finset.sum_eq_zero (s := Finset.range p.vecSize)
      (f := fun i => D2 p.ftvP x i a b * grad.getD i 0)
      (fun i hi => by rw [hg i (Finset.mem_range.mp hi), mul_zero])]
    rw [zero_add, Matrix.mul_assoc, Matrix.mul_apply, Finset.sum_range]
    refine Finset.sum_congr rfl fun i _ => ?_
    rw [Matrix.mul_apply, Finset.mul_sum, Finset.sum_range]
    refine Finset.sum_congr rfl fun j _ => ?_
    simp [J, toMatrix, mul_assoc]
  have hJ : Function.Injective J.mulVec := by
    refine (LinearMap.ker_eq_bot (f := J.mulVecLin)).mp ?_
    rw [LinearMap.ker_eq_bot']
    intro w hw'
    have := p.rank_ftvP hw hx (fun j => if hj : j < p.freeSize then w ⟨j, hj⟩ else 0) (fun i hi => by
      rw [Finset.sum_range]
      simpa [Matrix.mulVec, dotProduct, J] using congrFun hw' ⟨i, hi⟩)
    funext j
    simpa using this j j.2
  obtain ⟨m1, m2⟩ := sandwich hs hM hJ hu
  refine ⟨p', M, p'', C, h1, h2, c1, c2.nr, c2.nc, m1, fun r A J' hJ' => ?_⟩
  have : J' = J := by
    ext i j
    rw [hJ', c2.val i i.2 j j.2]
    rfl
  rw [this, Matrix.transpose_mul, Matrix.mul_assoc A J, Matrix.mul_assoc A, ← Matrix.mul_assoc _ Jᵀ, m2,
    Matrix.mul_assoc]

/-- The setting of `doubling_setting` for the quadratic objective, with a bounded or an unbounded
input. -/
theorem doubling_setting_lb (eigh : Eigh) (he : EighContract eigh) (lb : Flt) (hlb : lb < pinf)
    {F : (Fin 1 → ℝ) × (Fin 1 → ℝ) → ℝ} (hF : ∀ z, F z = exQ (Leaf.constrainFn lb pinf (z.1 0)) (z.2 0))
    (hsm : ContDiff ℝ 2 F) (hk : Differentiable ℝ fun u : Fin 1 → ℝ => Leaf.constrainFn lb pinf (u 0))
    (x : ℝ) :
    SensSetting F F (fun u _ => 2 * Leaf.constrainFn lb pinf (u 0)) eigh (scFn exQ) (scPar lb) (scPar ninf)
      ((scPar ninf).vecP [1]) doubling (some [x]) none [x] [1] := by
  have hw : (scPar ninf).WF := by simp [scPar, Param.WF, Kind.Legal]
  have hbl : ((scPar ninf).vecP [1]).blank = (scPar ninf).blank := rfl
  have hev : Evaluates (scPar lb) ((scPar ninf).vecP [1]) (scFn exQ) true false F := by
    have := scFn_evaluates lb ninf hlb ninf_lt_pinf true false exQ
    simp only [if_true, Bool.false_eq_true, if_false] at this
    rw [show F = fun z => exQ (Leaf.constrainFn lb pinf (z.1 0)) (z.2 0) from funext hF]
    exact Taylor.evaluates_blank this rfl hbl.symm
  refine ⟨he, hsm, hsm, ⟨0, fun u v => by simp⟩, one_pos, hev, hev, rfl, rfl, ?_, ?_, trivial, ?_,
    one_pos, ?_, ?_, ⟨?_, ?_⟩, Or.inl rfl⟩
  · intro p q
    unfold doubling
    split
    · rfl
    · exact Param.setVector_blank _ _
  · exact .leaf ⟨_, [], .scalar (name := "s") (lb := ninf) (ub := pinf) (val := some (Arr.scalar 1))
      (by simp [mkScalar, checkBoundsScalar, Leaf.set]), rfl⟩ trivial
  · simp [scPar, Param.Proper, Leaf.Proper, Arr.WF, Arr.size, Arr.scalar]
  · intro i _
    exact hk.const_mul 2
  · intro q hq y hy
    obtain ⟨a, rfl⟩ := List.length_eq_one_iff.mp hy
    obtain ⟨s1, g1⟩ := scPar_getVector lb hlb true a
    rw [if_pos rfl] at g1
    have hset : ∀ b : ℝ, q.setVector [b] = ((scPar ninf).vecP [b], none) := by
      intro b
      have h0 := (scPar ninf).setVector_ok hw [b] rfl
      have := setPar_eq (free := false) (p := scPar ninf) (q := q) (x := [b]) hq.symm
        (by simp only [setPar]; rw [if_neg (by simp), h0])
      simp only [setPar] at this
      rw [if_neg (by simp), if_neg (by simp)] at this
      rw [this, h0]
    simp only [Converter.convert, s1, doubling, g1, List.map_cons, List.map_nil, hset]
    simp only [Converter.readOut]
    rw [if_neg (by simp), (scPar ninf).getVector_vecP hw trivial [_] rfl]
    rfl
  · have h0 := (scPar ninf).setVector_ok hw [1] rfl
    have := setPar_eq (free := false) (p := scPar ninf) (q := (scPar ninf).vecP [1]) (x := [1]) rfl
      (by simp only [setPar]; rw [if_neg (by simp), h0])
    simp only [setPar] at this
    rw [if_neg (by simp), if_neg (by simp)] at this
    rw [this, h0]
  · exact (scPar ninf).getVector_vecP hw trivial [1] rfl

theorem scPar_ftv (lb : Flt) (hlb : lb < pinf) (a : ℝ) :
    (scPar lb).freeToVectorVal [a] = .ok [Leaf.constrainFn lb pinf a] := by
  have hw : (scPar lb).WF := by simpa [scPar, Param.WF, Kind.Legal] using hlb
  exact ((scPar lb).freeToVectorVal_ok hw trivial [a] rfl).1

/-- The hypotheses of C159 are met: a positive and an unbounded scalar, both holding 1 at the optimum of
`x² / 2 - ε x` for `ε = 1`. -/
example : ∃ eigh, EighContract eigh ∧
    SensSetting exQE exQE (fun u _ => 2 * Leaf.constrainFn (fin 0) pinf (u 0)) eigh (scFn exQ) (scPar (fin 0))
      (scPar ninf) ((scPar ninf).vecP [1]) doubling (some [0]) none [0] [1] ∧
    SensSetting exQF exQF (fun u _ => 2 * Leaf.constrainFn ninf pinf (u 0)) eigh (scFn exQ) (scPar ninf)
      (scPar ninf) ((scPar ninf).vecP [1]) doubling (some [1]) none [1] [1] ∧
    Built eigh (scPar (fin 0)) ∧ Built eigh (scPar ninf) ∧
    OfVector (scPar (fin 0)) (fun z w => exQ (z.getD 0 0) (w 0)) exQE ∧
    OfVector (scPar ninf) (fun z w => exQ (z.getD 0 0) (w 0)) exQF ∧
    PositiveCurvature exQE (toVec 1 [0]) (toVec 1 [1]) ∧ PositiveCurvature exQF (toVec 1 [1]) (toVec 1 [1]) ∧
    fderiv ℝ (fun u => exQE (u, toVec 1 [1])) (toVec 1 [0]) = 0 ∧
    (scPar (fin 0)).freeToVectorVal [0] = (scPar ninf).freeToVectorVal [1] := by
  obtain ⟨eigh, he⟩ := exists_eigh
  have h0 : (fin 0 : Flt) < pinf := by simp
  refine ⟨eigh, he, doubling_setting_lb eigh he (fin 0) h0 (fun z => by rw [constrainFn_zero]; rfl)
    exQE_smooth (by simp only [constrainFn_zero]; fun_prop) 0,
    doubling_setting_lb eigh he ninf ninf_lt_pinf (fun z => by rw [constrainFn_real]; rfl)
    (exQF_smooth.of_le two_le_infty) (by simp only [constrainFn_real]; fun_prop) 1, ?_, ?_, ?_, ?_, ?_,
    exQF_curv 1 1, ?_, ?_⟩
  · exact .leaf ⟨_, [], .scalar (name := "s") (lb := fin 0) (ub := pinf) (val := some (Arr.scalar 1))
      (by simp [mkScalar, checkBoundsScalar, Leaf.set]), rfl⟩ trivial
  · exact .leaf ⟨_, [], .scalar (name := "s") (lb := ninf) (ub := pinf) (val := some (Arr.scalar 1))
      (by simp [mkScalar, checkBoundsScalar, Leaf.set]), rfl⟩ trivial
  · intro y z w hy hz
    obtain ⟨a, rfl⟩ := List.length_eq_one_iff.mp hy
    rw [scPar_ftv _ h0, constrainFn_zero] at hz
    cases hz
    simp [exQE, toVec]
  · intro y z w hy hz
    obtain ⟨a, rfl⟩ := List.length_eq_one_iff.mp hy
    rw [scPar_ftv _ ninf_lt_pinf, constrainFn_real] at hz
    cases hz
    simp [exQF, toVec]
  · exact scalar_curv (h := fun s => exQ (Real.exp s) 1) (fun s => exQE_deriv s) (exQE_deriv2 0)
      (by norm_num)
  · exact scalar_crit (by simpa using exQE_deriv 0)
  · rw [scPar_ftv _ h0, scPar_ftv _ ninf_lt_pinf, constrainFn_zero, constrainFn_real, Real.exp_zero]

/-- The hypotheses of `C159_converted_hessian` are met by a positive scalar. -/
example : ∃ eigh, EighContract eigh ∧ Built eigh (scPar (fin 0)) ∧ (scPar (fin 0)).HasParams ∧
    0 < (scPar (fin 0)).vecSize ∧ (scPar (fin 0)).freeSize = (scPar (fin 0)).vecSize ∧
    IsMat (⟨[1, 1], [3]⟩ : Arr) 1 1 ∧ IsUnit (toMatrix 1 1 ⟨[1, 1], [3]⟩).det := by
  obtain ⟨eigh, he⟩ := exists_eigh
  refine ⟨eigh, he, ?_, trivial, one_pos, rfl, ⟨rfl, rfl⟩, ?_⟩
  · exact .leaf ⟨_, [], .scalar (name := "s") (lb := fin 0) (ub := pinf) (val := some (Arr.scalar 1))
      (by simp [mkScalar, checkBoundsScalar, Leaf.set]), rfl⟩ trivial
  · simp [toMatrix, Arr.at2]

end

end LRVB
