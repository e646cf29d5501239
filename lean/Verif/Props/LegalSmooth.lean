import Verif.Props.ConvexObjective
import Verif.Props.ObjDeriv

/-!
# C86 at a point, and C87 for objectives that are smooth at the legal values
-/

namespace LRVB

variable {A : Type}

/-- The partial derivative of a function that agrees near the point with a differentiable one. -/
theorem pd_at {m : ℕ} {h : List ℝ → ℝ} {g : (Fin m → ℝ) → ℝ} {x : List ℝ} (hx : x.length = m)
    (hg : DifferentiableAt ℝ g (toVec m x))
    (hh : ∀ᶠ u in nhds (toVec m x), ∀ y : List ℝ, y.length = m → toVec m y = u → h y = g u) {j : ℕ} (hj : j < m) :
    pd h x j = fderiv ℝ g (toVec m x) (basis m j) := by
  have hd := hg.hasFDerivAt
  have hup := _root_.hasDerivAt_update (toVec m x) ⟨j, hj⟩ (x.getD j 0)
  have hself : Function.update (toVec m x) ⟨j, hj⟩ (x.getD j 0) = toVec m x := by
    have : x.getD j 0 = toVec m x ⟨j, hj⟩ := rfl
    rw [this, Function.update_eq_self]
  rw [← hself] at hd
  have h4 := hd.comp_hasDerivAt _ hup
  rw [hself, ← basis_eq hj] at h4
  have hc := hup.continuousAt.tendsto
  rw [hself] at hc
  refine (h4.congr_of_eventuallyEq ?_).deriv
  filter_upwards [hc.eventually hh] with s hs
  exact hs _ (by simpa using hx) (toVec_set hx ⟨j, hj⟩ s)

/-- The Hessian of a function that is twice continuously differentiable at the point. -/
theorem agHess_at {m : ℕ} {F : List ℝ → Py Arr} {f : (Fin m → ℝ) → ℝ}
    (hF : ∀ y : List ℝ, y.length = m → F y = .ok (Arr.scalar (f (toVec m y)))) {x : List ℝ}
    (hx : x.length = m) (hm : 0 < m) (hf : ContDiffAt ℝ 2 f (toVec m x)) :
    agHess F x = .ok (Arr.ofFn2 m m fun i j =>
      fderiv ℝ (fderiv ℝ f) (toVec m x) (basis m j) (basis m i)) := by
  have hev : ∀ᶠ u in nhds (toVec m x), DifferentiableAt ℝ f u :=
    (hf.eventually (by norm_num)).mono fun u hu => hu.differentiableAt (by norm_num)
  have hdd : DifferentiableAt ℝ (fderiv ℝ f) (toVec m x) :=
    (hf.fderiv_right (m := 1) (by norm_num)).differentiableAt (by norm_num)
  rw [agHess, hF x hx, py_ok_bind, if_neg (by simp [Arr.size, Arr.scalar]; rintro rfl; simp at hx; omega)]
  congr 1
  have e : (Arr.scalar (f (toVec m x))).size = 1 := rfl
  rw [e, hx]
  simp only [Arr.ofFn2, Arr.scalar, List.nil_append, List.range_one, List.flatMap_cons,
    List.flatMap_nil, List.append_nil]
  congr 1
  apply List.flatMap_congr
  intro i hi
  apply List.map_congr_left
  intro j hj
  have hi := List.mem_range.mp hi
  have hj := List.mem_range.mp hj
  rw [pd_at (g := fun u => fderiv ℝ f u (basis m i)) hx (hdd.clm_apply (differentiableAt_const _)) ?_ hj,
    fderiv_clm_apply hdd (differentiableAt_const _)]
  · simp
  · filter_upwards [hev] with u hu y hy hyu
    subst hyu
    exact pd_at hy hu (Filter.Eventually.of_forall fun w z hz hzw => by rw [hF z hz, hzw]; rfl) hi

/-- The Hessian-vector product of a function that is twice continuously differentiable at the point. -/
theorem agHvp_at {m : ℕ} {F : List ℝ → Py Arr} {f : (Fin m → ℝ) → ℝ}
    (hF : ∀ y : List ℝ, y.length = m → F y = .ok (Arr.scalar (f (toVec m y)))) {x v : List ℝ}
    (hx : x.length = m) (hv : v.length = m) (hf : ContDiffAt ℝ 2 f (toVec m x)) :
    agHvp F x v = .ok ((List.range m).map fun j => ∑ i ∈ Finset.range m,
      fderiv ℝ (fderiv ℝ f) (toVec m x) (basis m j) (basis m i) * v.getD i 0) := by
  have hev : ∀ᶠ u in nhds (toVec m x), DifferentiableAt ℝ f u :=
    (hf.eventually (by norm_num)).mono fun u hu => hu.differentiableAt (by norm_num)
  have hdd : DifferentiableAt ℝ (fderiv ℝ f) (toVec m x) :=
    (hf.fderiv_right (m := 1) (by norm_num)).differentiableAt (by norm_num)
  have hda : ∀ i, DifferentiableAt ℝ (fun u => fderiv ℝ f u (basis m i)) (toVec m x) :=
    fun i => hdd.clm_apply (differentiableAt_const _)
  rw [agHvp, hF x hx, py_ok_bind, if_neg (by simp [Arr.size, Arr.scalar]), if_neg (by omega)]
  congr 1
  rw [hx]
  apply List.map_congr_left
  intro j hj
  have hj := List.mem_range.mp hj
  rw [pd_at (g := fun u => ∑ i ∈ Finset.range m, fderiv ℝ f u (basis m i) * v.getD i 0) hx
    (DifferentiableAt.fun_sum fun i _ => (hda i).mul_const _) ?_ hj]
  · rw [fderiv_fun_sum fun i _ => (hda i).mul_const (v.getD i 0)]
    rw [ContinuousLinearMap.sum_apply]
    refine Finset.sum_congr rfl fun i _ => ?_
    rw [fderiv_mul_const (hda i), fderiv_clm_apply hdd (differentiableAt_const _)]
    simp [mul_comm]
  · filter_upwards [hev] with u hu y hy hyu
    subst hyu
    refine Finset.sum_congr rfl fun i hi => ?_
    rw [pd_at hy hu (Filter.Eventually.of_forall fun w z hz hzw => by rw [hF z hz, hzw]; rfl)
      (Finset.mem_range.mp hi)]

/-- **C86** (at a point) For an objective that is twice continuously differentiable at the point `x` only, the
gradient, the Hessian and the Hessian-vector product at `x` are those of calculus, in the free and in the vector
parameterization; the Hessian is symmetric and its product with `v` is the Hessian-vector product. -/
theorem C86_at_point (o : Objective A) (a : A) (free : Bool) (m : ℕ) (hm : 0 < m) (f : (Fin m → ℝ) → ℝ)
    (hval : ∀ y : List ℝ, y.length = m →
      (if free then (o.funFree y a false).2 else (o.funVector y a).2) = .ok (Arr.scalar (f (toVec m y))))
    (x v : List ℝ) (hx : x.length = m) (hv : v.length = m) (hf : ContDiffAt ℝ 2 f (toVec m x)) :
    ∃ g H w,
      (if free then o.funFreeGrad x a else o.funVectorGrad x a).2 = .ok g ∧
      (if free then o.funFreeHessian x a else o.funVectorHessian x a).2 = .ok H ∧
      (if free then o.funFreeHvp x a v else o.funVectorHvp x a v).2 = .ok w ∧
      g.length = m ∧ IsMat H m m ∧
      (∀ j : Fin m, g.getD j 0 = fderiv ℝ f (toVec m x) (Pi.single j 1)) ∧
      (∀ i j : Fin m, H.at2 i j = fderiv ℝ (fderiv ℝ f) (toVec m x) (Pi.single j 1) (Pi.single i 1) ∧
        H.at2 i j = H.at2 j i) ∧
      H.mulVec v = .ok w := by
  have hF : ∀ y : List ℝ, y.length = m →
      valueAt (o.fn a) o.par free y = .ok (Arr.scalar (f (toVec m y))) :=
    fun y hy => valueAt_scalar (hval y hy)
  have hset := valueAt_ok_set (hF x hx)
  have hsymm : ∀ i j, fderiv ℝ (fderiv ℝ f) (toVec m x) (basis m j) (basis m i) =
      fderiv ℝ (fderiv ℝ f) (toVec m x) (basis m i) (basis m j) :=
    fun i j => (hf.isSymmSndFDerivAt (by simp)).eq _ _
  refine ⟨(List.range m).map fun j => fderiv ℝ f (toVec m x) (basis m j),
    Arr.ofFn2 m m fun i j => fderiv ℝ (fderiv ℝ f) (toVec m x) (basis m j) (basis m i),
    (List.range m).map fun j => ∑ i ∈ Finset.range m,
      fderiv ℝ (fderiv ℝ f) (toVec m x) (basis m j) (basis m i) * v.getD i 0,
    ?_, ?_, ?_, by simp, ⟨Arr.ofFn2_WF _ _ _, rfl⟩, ?_, ?_, ?_⟩
  · have h := (o.deriv_value free x a (fun F => agGrad F x) hset).trans
      (agGrad_at hF hx (hf.differentiableAt (by norm_num)))
    cases free <;> exact h
  · have h := (o.deriv_value free x a (fun F => agHess F x) hset).trans (agHess_at hF hx hm hf)
    cases free <;> exact h
  · have h := (o.deriv_value free x a (fun F => agHvp F x v) hset).trans (agHvp_at hF hx hv hf)
    cases free <;> exact h
  · intro j
    rw [getD_range_map j.2, basis_fin]
  · intro i j
    rw [Arr.at2_ofFn2 _ _ _ i.2 j.2, Arr.at2_ofFn2 _ _ _ j.2 i.2, hsymm j i, ← basis_fin, ← basis_fin]
    exact ⟨rfl, rfl⟩
  · rw [mulVec_ok (r := m) (c := m) rfl hv]
    congr 1
    unfold mulVecFn
    apply List.map_congr_left
    intro i hi
    refine Finset.sum_congr rfl fun j hj => ?_
    rw [Arr.at2_ofFn2 _ _ _ (List.mem_range.mp hi) (Finset.mem_range.mp hj), hsymm]

/-- **C87** (legal values) The two ways to the free Hessian agree for objectives that are smooth at the legal
vectors only, e.g. with logarithms of positive parameters. -/
theorem C87_legal_values {eigh : Eigh} (he : EighContract eigh) (o : Objective A) (a : A)
    (hb : Built eigh o.par) (hp : o.par.HasParams) (hn : 0 < o.par.vecSize)
    (hn' : 0 < o.par.freeSize) (f : (Fin o.par.vecSize → ℝ) → ℝ) (hf : SmoothOnLegal o.par f)
    (hfn : ∀ (q : Param) (v : List ℝ), q.getVector = .ok v → v.length = o.par.vecSize →
      o.fn a q = .ok (Arr.scalar (f (toVec o.par.vecSize v))))
    (x : List ℝ) (hx : x.length = o.par.freeSize) :
    ∃ v g H M, o.par.freeToVectorVal x = .ok v ∧
      (o.funVectorGrad v a).2 = .ok g ∧ (o.funVectorHessian v a).2 = .ok H ∧
      (o.par.convertHessian x g H).2 = .ok M ∧ (o.funFreeHessian x a).2 = .ok M := by
  have hw := hb.wf he
  obtain ⟨Γ, hfΓ, hFf, hΓ⟩ := exists_smooth_coord he hb hp hf hfn
  have hFv := valueAt_vector (F := fun u => Arr.scalar (f u)) hw hp hfn
  obtain ⟨v, hv, -⟩ := hΓ x hx
  have hfv := hf x v hx hv
  have hvl := (legal_of_free he hb hp hx hv).1
  obtain ⟨p', M, hM, hMm, hMd⟩ := C41_free_hessian he o.par hb hp hn x hx f hf v hv
    ((List.range o.par.vecSize).map fun j =>
      fderiv ℝ f (toVec o.par.vecSize v) (basis o.par.vecSize j)) (by simp)
    (fun i => by simp [List.getD_eq_getElem?_getD, basis_fin])
    (Arr.ofFn2 o.par.vecSize o.par.vecSize fun i j => fderiv ℝ (fderiv ℝ f)
      (toVec o.par.vecSize v) (basis o.par.vecSize j) (basis o.par.vecSize i))
    ⟨Arr.ofFn2_WF _ _ _, rfl⟩
    (fun i j => by rw [Arr.at2_ofFn2 _ _ _ i.2 j.2, basis_fin, basis_fin])
  refine ⟨v, _, _, M, hv, ?_, ?_, by rw [hM], ?_⟩
  · rw [Objective.funVectorGrad, o.deriv_value _ _ _ _ (valueAt_ok_set (hFv _ hvl)),
      agGrad_at hFv hvl (hfv.differentiableAt (by norm_num))]
  · rw [Objective.funVectorHessian, o.deriv_value _ _ _ _ (valueAt_ok_set (hFv _ hvl)),
      agHess_at hFv hvl hn hfv]
  · rw [Objective.funFreeHessian, o.deriv_value _ _ _ _ (valueAt_ok_set (hFf _ hx)),
      agHess_ok hfΓ hFf hx hn']
    congr 1
    refine Arr.mat_ext ⟨Arr.ofFn2_WF _ _ _, rfl⟩ hMm fun i hi j hj => ?_
    rw [Arr.at2_ofFn2 _ _ _ hi hj]
    have hFo : ∀ y : List ℝ, y.length = o.par.freeSize →
        o.par.freeObjective f y = .ok [f (Γ (toVec o.par.freeSize y))] := by
      intro y hy
      obtain ⟨w, hw1, hw2⟩ := hΓ y hy
      rw [Param.freeObjective, hw1, py_ok_bind, hw2]
    refine SecondPartialDeriv.unique ?_ (hMd i hi j hj)
    refine ⟨fun s => fderiv ℝ (fun u => f (Γ u)) (toVec _ (x.set j s)) (basis _ i), fun s => ?_, ?_⟩
    · exact ⟨fun t => f (Γ (toVec _ ((x.set j s).set i t))),
        fun t => ⟨_, hFo _ (by simpa using hx), rfl⟩,
        pd_hasDerivAt (hfΓ.differentiable (by norm_num)) (fun _ _ => rfl) (by simpa using hx) hi⟩
    · have := pd_hasDerivAt (h := fun y => fderiv ℝ (fun u => f (Γ u)) (toVec _ y) (basis _ i))
        (fderiv_apply_differentiable hfΓ (basis _ i)) (fun _ _ => rfl) hx hj
      rwa [fderiv_fderiv_apply hfΓ] at this

/-- The hypotheses are met by `v - log v` for a positive scalar `v`. -/
example : ∃ o : Objective Unit, (∀ eigh, Built eigh o.par) ∧ o.par.HasParams ∧ o.par.vecSize = 1 ∧
    o.par.freeSize = 1 ∧ ∃ f : (Fin o.par.vecSize → ℝ) → ℝ, SmoothOnLegal o.par f ∧ ¬ ContDiff ℝ 2 f ∧
    ∀ (q : Param) (v : List ℝ), q.getVector = .ok v → v.length = o.par.vecSize →
      o.fn () q = .ok (Arr.scalar (f (toVec o.par.vecSize v))) := by
  have hb : ∀ e, Built e (scPar (Flt.fin 0)) := fun e =>
    .leaf ⟨_, [], .scalar (name := "s") (lb := Flt.fin 0) (ub := Flt.pinf) (val := some (Arr.scalar 1))
      (by simp [mkScalar, checkBoundsScalar, Leaf.set]), rfl⟩ trivial
  refine ⟨{ exObj with
    par := scPar (Flt.fin 0)
    fn := fun _ q => do
      let v ← q.getVector
      .ok (Arr.scalar (toVec 1 v 0 - Real.log (toVec 1 v 0))) }, hb, trivial, rfl, rfl,
    fun u => u (0 : Fin 1) - Real.log (u (0 : Fin 1)), fun y v hy hv => ?_, fun h => ?_, fun q v hq _ => ?_⟩
  · obtain ⟨eigh, he⟩ := exists_eigh
    obtain ⟨l, k⟩ := legal_of_free he (hb eigh) trivial hy hv
    have l' : v.length = 1 := l
    obtain ⟨t, rfl⟩ := List.length_eq_one_iff.1 l'
    have k' : ∀ a ∈ [t], Flt.fin 0 < Flt.fin a ∧ Flt.fin a < Flt.pinf := k
    have ht : (0 : ℝ) < t := (k' t (by simp)).1
    have hne : toVec 1 [t] 0 ≠ 0 := ht.ne'
    have h2 : ContDiffAt ℝ 2 (fun u : Fin 1 → ℝ => u 0 - Real.log (u 0)) (toVec 1 [t]) :=
      (contDiff_apply ℝ ℝ (0 : Fin 1)).contDiffAt.sub ((contDiff_apply ℝ ℝ (0 : Fin 1)).contDiffAt.log hne)
    exact h2
  · have h' : ContDiff ℝ 2 (fun u : Fin 1 → ℝ => u 0 - Real.log (u 0)) := h
    have hc : Continuous fun s : ℝ => s - (s - Real.log s) :=
      continuous_id.sub (h'.continuous.comp (continuous_pi fun _ => continuous_id : Continuous fun (s : ℝ) (_ : Fin 1) => s))
    simp only [sub_sub_cancel] at hc
    have hd : ContinuousAt Real.log 0 := hc.continuousAt
    exact absurd rfl (Real.continuousAt_log_iff.1 hd)
  · simp only [hq, py_ok_bind]
    rfl

/-- The hypotheses of `C86_at_point` are met by the same objective in the vector parameterization, at the point 2. -/
example : ∃ (o : Objective Unit) (f : (Fin 1 → ℝ) → ℝ), ¬ ContinuousAt f (toVec 1 [0]) ∧
    ContDiffAt ℝ 2 f (toVec 1 [2]) ∧ ∀ y : List ℝ, y.length = 1 →
      (if false then (o.funFree y () false).2 else (o.funVector y ()).2) = .ok (Arr.scalar (f (toVec 1 y))) := by
  have hw : (scPar (Flt.fin 0)).WF := by simp [scPar, Param.WF, Kind.Legal]
  refine ⟨{ exObj with
    par := scPar (Flt.fin 0)
    fn := fun _ q => do
      let v ← q.getVector
      .ok (Arr.scalar (toVec 1 v 0 - Real.log (toVec 1 v 0))) },
    fun u => u (0 : Fin 1) - Real.log (u (0 : Fin 1)), fun h => ?_, ?_, fun y hy => ?_⟩
  · have e : toVec 1 [0] = fun _ : Fin 1 => (0 : ℝ) := by
      funext i
      have : i = 0 := Subsingleton.elim _ _
      subst this
      rfl
    rw [e] at h
    have hi : ContinuousAt (fun (s : ℝ) (_ : Fin 1) => s) 0 :=
      (continuous_pi fun _ => continuous_id : Continuous fun (s : ℝ) (_ : Fin 1) => s).continuousAt
    have hc : ContinuousAt (fun s : ℝ => s - (s - Real.log s)) 0 :=
      continuousAt_id.sub (ContinuousAt.comp (f := fun (s : ℝ) (_ : Fin 1) => s) h hi)
    simp only [sub_sub_cancel] at hc
    exact absurd rfl (Real.continuousAt_log_iff.1 hc)
  · have hne : toVec 1 [2] 0 ≠ 0 := by simp [toVec]
    exact (contDiff_apply ℝ ℝ (0 : Fin 1)).contDiffAt.sub ((contDiff_apply ℝ ℝ (0 : Fin 1)).contDiffAt.log hne)
  · have hy' : y.length = (scPar (Flt.fin 0)).vecSize := hy
    have hpl := Param.setVector_plain (scPar (Flt.fin 0)) y (by rw [(scPar (Flt.fin 0)).setVector_ok hw y hy'])
    rw [(scPar (Flt.fin 0)).setVector_ok hw y hy'] at hpl
    simp only [Bool.false_eq_true, if_false, Objective.funVector, (scPar (Flt.fin 0)).setVector_ok hw y hy']
    rw [Param.mark_plain _ hpl, (scPar (Flt.fin 0)).getVector_vecP hw trivial y hy', py_ok_bind]

end LRVB
