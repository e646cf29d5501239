import Verif.Props.OrderObjective
import Verif.Props.Taylor
import Verif.Props.Stationary

/-!
# C183 for the linear approximation and for the Taylor expansion
-/

namespace LRVB

open Arr Filter
open scoped ContDiff

noncomputable section

variable {n m : ℕ} {F G : (Fin n → ℝ) × (Fin m → ℝ) → ℝ}

/-- What is needed of the rearrangement. -/
theorem order_setting {eigh : Eigh} (he : EighContract eigh) {p q : Param} (hp : Built eigh p) (hq : Built eigh q)
    (h : SameByKey p q) (hn : p.freeSize = n) :
    ∃ σ : Equiv.Perm (Fin n), Rearranges (SameParts p.freeIndices q.freeIndices) σ := by
  obtain ⟨-, -, ⟨σ, hσ0⟩, -⟩ := C183_rearrangement he p q hp hq h
  subst hn
  exact ⟨σ, rearranges_of hσ0⟩

theorem contDiff_perm {k : WithTop ℕ∞} (hF : ContDiff ℝ k F) (σ : Equiv.Perm (Fin n)) :
    ContDiff ℝ k fun z : (Fin n → ℝ) × (Fin m → ℝ) => F ((permL σ).symm z.1, z.2) :=
  hF.comp (((permL σ).symm.contDiff.comp contDiff_fst).prodMk contDiff_snd)

theorem critical_perm (hF : ContDiff ℝ 2 F) (σ : Equiv.Perm (Fin n)) {u : Fin n → ℝ} {w : Fin m → ℝ}
    (h : fderiv ℝ (fun u => F (u, w)) u = 0) :
    fderiv ℝ (fun u => F ((permL σ).symm u, w)) (permL σ u) = 0 := by
  have hd : HasFDerivAt (fun u => F (u, w)) (0 : (Fin n → ℝ) →L[ℝ] ℝ) ((permL σ).symm (permL σ u)) := by
    rw [ContinuousLinearEquiv.symm_apply_apply, ← h]
    exact ((contDiff_left hF w).differentiable (by norm_num) _).hasFDerivAt
  have := HasFDerivAt.comp (permL σ u) hd ((permL σ).symm.hasFDerivAt)
  simpa [Function.comp_def] using this.fderiv

theorem curvature_perm (σ : Equiv.Perm (Fin n)) {x : Fin n → ℝ} {e : Fin m → ℝ} (hpc : PositiveCurvature F x e) :
    PositiveCurvature (fun z => F ((permL σ).symm z.1, z.2)) (permL σ x) e := by
  intro u hu
  have := hpc ((permL σ).symm u) (by simpa using hu)
  simpa [map_add] using this

theorem path_perm (hF : ContDiff ℝ 2 F) (σ : Equiv.Perm (Fin n)) {x : Fin n → ℝ} {e d : Fin m → ℝ} {η : ℝ → Fin n → ℝ}
    (h : OptimumPath F x e d η) :
    OptimumPath (fun z => F ((permL σ).symm z.1, z.2)) (permL σ x) e d fun t => permL σ (η t) := by
  refine ⟨?_, by rw [h.start], ?_⟩
  · filter_upwards [h.smooth] with t ht
    exact (permL σ).contDiff.contDiffAt.comp t ht
  · filter_upwards [h.critical] with t ht
    exact critical_perm hF σ ht

theorem iteratedDeriv_perm (σ : Equiv.Perm (Fin n)) {η : ℝ → Fin n → ℝ} (k : ℕ) (h : ContDiffAt ℝ k η 0) :
    iteratedDeriv k (fun t => permL σ (η t)) 0 = permL σ (iteratedDeriv k η 0) := by
  rw [iteratedDeriv, iteratedDeriv]
  have := (permL σ : (Fin n → ℝ) →L[ℝ] (Fin n → ℝ)).iteratedFDeriv_comp_left h (i := k) le_rfl
  exact congrArg (fun f => f fun _ => 1) this

theorem taylorPoly_perm (σ : Equiv.Perm (Fin n)) {η : ℝ → Fin n → ℝ} (k : ℕ) (h : ContDiffAt ℝ ∞ η 0) :
    taylorPoly (fun t => permL σ (η t)) k = permL σ (taylorPoly η k) := by
  unfold taylorPoly
  rw [map_sum]
  refine Finset.sum_congr rfl fun j _ => ?_
  rw [map_smul, iteratedDeriv_perm σ _ (h.of_le (by exact_mod_cast le_top))]

/-- Two Taylor expansions whose inputs are rearranged. -/
theorem rearranged_taylor (hF : ContDiff ℝ ∞ F) (hn : 0 < n) (hm : 0 < m)
    (objFn : Param → Param → Py Arr) (p q hyperPar : Param) (hyperIsFree : Bool)
    {R : List ℝ → List ℝ → Prop} {σ : Equiv.Perm (Fin n)} (hσ : Rearranges R σ)
    (hev : Evaluates p hyperPar objFn true hyperIsFree F)
    (hev' : Evaluates q hyperPar objFn true hyperIsFree fun z => F ((permL σ).symm z.1, z.2))
    (x y e : List ℝ) (hx : x.length = n) (hy : y.length = n) (he : e.length = m) (hxy : R x y)
    (hcrit : fderiv ℝ (fun u => F (u, toVec m e)) (toVec n x) = 0)
    (hpc : PositiveCurvature F (toVec n x) (toVec m e)) (order : ℕ) (ho : 1 ≤ order) :
    ∃ T T', Taylor.new objFn p hyperPar x e order true hyperIsFree none none = .ok T ∧
      Taylor.new objFn q hyperPar y e order true hyperIsFree none none = .ok T' ∧
      ∀ d : List ℝ, d.length = m → ∀ k : ℕ, 1 ≤ k → k ≤ order →
        (∃ u w, (T.evaluateDk d k).2 = .ok u ∧ (T'.evaluateDk d k).2 = .ok w ∧
          u.length = n ∧ w.length = n ∧ R u w) ∧
        ∀ off, ∃ u w, (T.evaluateSeries d off (some k)).2 = .ok u ∧ (T'.evaluateSeries d off (some k)).2 = .ok w ∧
          u.length = n ∧ w.length = n ∧ R u w := by
  have hF2 : ContDiff ℝ 2 F := hF.of_le two_le_infty
  have hT : toVec n y = permL σ (toVec n x) := (hσ x y hx hy).mp hxy
  have hF' := contDiff_perm hF σ
  have hpc' := curvature_perm σ hpc
  rw [← hT] at hpc'
  obtain ⟨T, t1, t2⟩ := C55_derivatives_exist hF hn hm objFn p hyperPar hyperIsFree hev x e hx he hcrit hpc order ho none
  obtain ⟨T2, s1, s2, -⟩ := C56_taylor_series hF hn hm objFn p hyperPar hyperIsFree hev x e hx he hpc order ho none
  obtain ⟨T', t1', t2'⟩ := C55_kth_derivative hF' hn hm objFn q hyperPar hyperIsFree hev' y e hy he hpc' order ho none
  obtain ⟨T2', s1', s2', -⟩ := C56_taylor_series hF' hn hm objFn q hyperPar hyperIsFree hev' y e hy he hpc' order ho none
  obtain rfl : T = T2 := by rw [t1] at s1; exact Except.ok.inj s1
  obtain rfl : T' = T2' := by rw [t1'] at s1'; exact Except.ok.inj s1'
  refine ⟨T, T', t1, t1', fun d hd k k1 k2 => ?_⟩
  obtain ⟨η, hη, hk⟩ := t2 d hd
  have hη' := path_perm hF2 σ hη
  rw [← hT] at hη'
  have hs := hη.smooth.self_of_nhds
  refine ⟨⟨_, List.ofFn (iteratedDeriv k (fun t => permL σ (η t)) 0), hk k k1 k2, ?_, List.length_ofFn, List.length_ofFn, ?_⟩, fun off => ?_⟩
  · obtain ⟨T3, h3, -⟩ := t2' d hd _ hη' k k1 k2
    rw [h3]
  · refine (hσ _ _ (by simp) (by simp)).mpr ?_
    rw [toVec_ofFn, toVec_ofFn, iteratedDeriv_perm σ k (hs.of_le (by exact_mod_cast le_top))]
  · have a := (s2 d hd η hη).1 k k1 k2
    have b := (s2' d hd _ hη').1 k k1 k2
    cases off with
    | true =>
      refine ⟨_, _, a.1, b.1, List.length_ofFn, List.length_ofFn, (hσ _ _ (by simp) (by simp)).mpr ?_⟩
      rw [toVec_ofFn, toVec_ofFn, hT, taylorPoly_perm σ k hs, map_add]
    | false =>
      refine ⟨_, _, a.2, b.2, List.length_ofFn, List.length_ofFn, (hσ _ _ (by simp) (by simp)).mpr ?_⟩
      rw [toVec_ofFn, toVec_ofFn, taylorPoly_perm σ k hs]

/-- **C183** for the Taylor expansion: for two dictionaries that hold the same parameters under the same keys, pushed in
whatever order, and objectives that look up parameters by key, both objects are constructed at the same optimum, and all
derivatives and all Taylor series hold the same numbers under every key. -/
theorem C183_taylor {eigh : Eigh} (hE : EighContract eigh) (hF : ContDiff ℝ ∞ F) (hn : 0 < n) (hm : 0 < m)
    (objFn : Param → Param → Py Arr) (p q hyperPar : Param) (hyperIsFree : Bool)
    (hp : Built eigh p) (hq : Built eigh q) (h : SameByKey p q) (hpn : p.freeSize = n) (hobj : ReadsByKey objFn)
    (hev : Evaluates p hyperPar objFn true hyperIsFree F)
    (x y e : List ℝ) (hx : x.length = n) (hy : y.length = n) (he : e.length = m)
    (hxy : SameParts p.freeIndices q.freeIndices x y)
    (hcrit : fderiv ℝ (fun u => F (u, toVec m e)) (toVec n x) = 0)
    (hpc : PositiveCurvature F (toVec n x) (toVec m e)) (order : ℕ) (ho : 1 ≤ order) :
    ∃ T T', Taylor.new objFn p hyperPar x e order true hyperIsFree none none = .ok T ∧
      Taylor.new objFn q hyperPar y e order true hyperIsFree none none = .ok T' ∧
      ∀ d : List ℝ, d.length = m → ∀ k : ℕ, 1 ≤ k → k ≤ order →
        (∃ u w, (T.evaluateDk d k).2 = .ok u ∧ (T'.evaluateDk d k).2 = .ok w ∧
          u.length = n ∧ w.length = n ∧ SameParts p.freeIndices q.freeIndices u w) ∧
        ∀ off, ∃ u w, (T.evaluateSeries d off (some k)).2 = .ok u ∧ (T'.evaluateSeries d off (some k)).2 = .ok w ∧
          u.length = n ∧ w.length = n ∧ SameParts p.freeIndices q.freeIndices u w := by
  obtain ⟨σ, hσ⟩ := order_setting hE hp hq h hpn
  exact rearranged_taylor hF hn hm objFn p q hyperPar hyperIsFree hσ hev
    (order_evaluates (hp.wf hE) (hq.wf hE) h hpn hσ hobj hev) x y e hx hy he hxy hcrit hpc order ho

/-- Two linear approximations whose inputs are rearranged. -/
theorem rearranged_linear_approximation (hF : ContDiff ℝ 2 F) (hG : ContDiff ℝ 2 G)
    (g : (Fin n → ℝ) → ℝ) (hFG : ∀ u v, F (u, v) = G (u, v) + g u) (hn : 0 < n)
    (objFn : Param → Param → Py Arr) (hyperFn : Option (Param → Param → Py Arr)) (p q hyperPar : Param)
    {R : List ℝ → List ℝ → Prop} {σ : Equiv.Perm (Fin n)} (hσ : Rearranges R σ)
    (hev : Evaluates p hyperPar objFn true false F) (hevG : Evaluates p hyperPar (hyperFn.getD objFn) true false G)
    (hev' : Evaluates q hyperPar objFn true false fun z => F ((permL σ).symm z.1, z.2))
    (hevG' : Evaluates q hyperPar (hyperFn.getD objFn) true false fun z => G ((permL σ).symm z.1, z.2))
    (x y e : List ℝ) (hx : x.length = n) (hy : y.length = n) (he : e.length = m) (hxy : R x y)
    (hcrit : fderiv ℝ (fun u => F (u, toVec m e)) (toVec n x) = 0)
    (hpc : PositiveCurvature F (toVec n x) (toVec m e)) :
    ∃ T T', LinApprox.new objFn p hyperPar x e true false none hyperFn = .ok T ∧
      LinApprox.new objFn q hyperPar y e true false none hyperFn = .ok T' ∧
      IsMat T.dinputDhyper n m ∧ IsMat T'.dinputDhyper n m ∧
      (∀ j < m, R (column n T.dinputDhyper j) (column n T'.dinputDhyper j)) ∧
      ∀ new : List ℝ, new.length = m → ∃ u w, T.predictInput new = .ok u ∧ T'.predictInput new = .ok w ∧
        u.length = n ∧ w.length = n ∧ R u w := by
  have hT : toVec n y = permL σ (toVec n x) := (hσ x y hx hy).mp hxy
  have hpc' := curvature_perm σ hpc
  rw [← hT] at hpc'
  obtain ⟨T, t1, t2, -⟩ := C51_linear_approximation hF hG g hFG hn objFn hyperFn p hyperPar hev hevG x e hx he hpc none
  obtain ⟨T', t1', t2', -⟩ := C51_linear_approximation (contDiff_perm hF σ) (contDiff_perm hG σ)
    (fun u => g ((permL σ).symm u)) (fun u v => hFG _ _) hn objFn hyperFn q hyperPar hev' hevG' y e hy he hpc' none
  obtain ⟨opt, o1, o2, o3, -⟩ := exists_optimumMap hF hcrit hpc
  have hc' : ContinuousAt (fun w => permL σ (opt w)) (toVec m e) :=
    ContinuousAt.comp (g := permL σ) (permL σ).continuous.continuousAt o1.continuousAt
  have ho' : OptimumMap (fun z => F ((permL σ).symm z.1, z.2)) (toVec m e) fun w => permL σ (opt w) := by
    filter_upwards [o3] with w hw
    exact critical_perm hF σ hw
  obtain ⟨A, a1, a2, a3⟩ := t2.2 opt o1.continuousAt o2 o3
  obtain ⟨A', b1, b2, b3⟩ := t2'.2 _ hc' (by rw [o2, hT]) ho'
  have hAA : A' = ((permL σ : (Fin n → ℝ) →L[ℝ] (Fin n → ℝ)).comp A) :=
    b1.unique (HasFDerivAt.comp (toVec m e) (permL σ).hasFDerivAt a1)
  refine ⟨T, T', t1, t1', t2.1, t2'.1, fun j hj => ?_, fun new hnew => ?_⟩
  · refine (hσ _ _ (by simp [column]) (by simp [column])).mpr ?_
    rw [toVec_column, toVec_column]
    funext i
    rw [permL_apply, b2 i ⟨j, hj⟩, a2 (σ i) ⟨j, hj⟩, hAA]
    rfl
  · refine ⟨_, _, a3 new hnew, b3 new hnew, List.length_ofFn, List.length_ofFn, (hσ _ _ (by simp) (by simp)).mpr ?_⟩
    rw [toVec_ofFn, toVec_ofFn, hAA, hT, map_add]
    rfl

/-- **C183** for the linear approximation: the sensitivities and the predictions hold the same numbers under every
key. -/
theorem C183_linear_approximation {eigh : Eigh} (hE : EighContract eigh) (hF : ContDiff ℝ 2 F) (hG : ContDiff ℝ 2 G)
    (g : (Fin n → ℝ) → ℝ) (hFG : ∀ u v, F (u, v) = G (u, v) + g u) (hn : 0 < n)
    (objFn : Param → Param → Py Arr) (hyperFn : Option (Param → Param → Py Arr)) (p q hyperPar : Param)
    (hp : Built eigh p) (hq : Built eigh q) (h : SameByKey p q) (hpn : p.freeSize = n) (hobj : ReadsByKey objFn)
    (hhyper : ∀ f, hyperFn = some f → ReadsByKey f)
    (hev : Evaluates p hyperPar objFn true false F) (hevG : Evaluates p hyperPar (hyperFn.getD objFn) true false G)
    (x y e : List ℝ) (hx : x.length = n) (hy : y.length = n) (he : e.length = m)
    (hxy : SameParts p.freeIndices q.freeIndices x y)
    (hcrit : fderiv ℝ (fun u => F (u, toVec m e)) (toVec n x) = 0)
    (hpc : PositiveCurvature F (toVec n x) (toVec m e)) :
    ∃ T T', LinApprox.new objFn p hyperPar x e true false none hyperFn = .ok T ∧
      LinApprox.new objFn q hyperPar y e true false none hyperFn = .ok T' ∧
      IsMat T.dinputDhyper n m ∧ IsMat T'.dinputDhyper n m ∧
      (∀ j < m, SameParts p.freeIndices q.freeIndices (column n T.dinputDhyper j) (column n T'.dinputDhyper j)) ∧
      ∀ new : List ℝ, new.length = m → ∃ u w, T.predictInput new = .ok u ∧ T'.predictInput new = .ok w ∧
        u.length = n ∧ w.length = n ∧ SameParts p.freeIndices q.freeIndices u w := by
  obtain ⟨σ, hσ⟩ := order_setting hE hp hq h hpn
  have hgetD : ReadsByKey (hyperFn.getD objFn) := by
    cases hyperFn with
    | none => exact hobj
    | some f => exact hhyper f rfl
  exact rearranged_linear_approximation hF hG g hFG hn objFn hyperFn p q hyperPar hσ hev hevG
    (order_evaluates (hp.wf hE) (hq.wf hE) h hpn hσ hobj hev)
    (order_evaluates (hp.wf hE) (hq.wf hE) h hpn hσ hgetD hevG) x y e hx hy he hxy hcrit hpc

/-- The hypotheses are met by the two dictionaries of two numbers of `Props/Order`. -/
example : ∃ eigh : Eigh, EighContract eigh ∧ Built eigh exAB ∧ Built eigh exBA ∧ SameByKey exAB exBA ∧ exAB ≠ exBA ∧
    ContDiff ℝ ∞ exABF ∧ ReadsByKey exABfn ∧ Evaluates exAB ((scPar Flt.ninf).vecP [0]) exABfn true false exABF := by
  obtain ⟨eigh, he⟩ := exists_eigh
  refine ⟨eigh, he, exAB_built eigh, exBA_built eigh, exAB_same, ?_, ?_, ?_, (exAB_setting eigh he).evF⟩
  · rw [exAB_eq, exBA_eq]
    simp
  · unfold exABF
    fun_prop
  · intro p q h hs
    simp only [exABfn, look_congr hs]

end

end LRVB
