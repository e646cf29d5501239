import Verif.Spec.Coordinates
import Verif.Props.ObjDeriv
import Verif.Props.Converter
import Verif.Lemmas.Optimum
import Verif.Props.Reparam
import Verif.Props.TaylorFlags
import Verif.Props.LegalValues

/-!
# C181: derivatives in free and in vector coordinates
-/

namespace LRVB

open Finset

variable {A : Type}

/-- Free or vector coordinates as a smooth map to the vector value. -/
theorem exists_coord {p : Param} (hw : p.WF) (hp : p.HasParams) (free : Bool) {n : ℕ} (hn : p.sizeIn free = n) :
    ∃ Γ : (Fin n → ℝ) → Fin p.vecSize → ℝ, ContDiff ℝ 2 Γ ∧
      (∀ y : List ℝ, y.length = n → ∃ w, w.length = p.vecSize ∧
        toVec p.vecSize w = Γ (toVec n y) ∧ (setPar p y free).2 = none ∧
        ((setPar p y free).1.mark false).getVector = .ok w) ∧
      ∀ x v P, Coordinates p free x v P → x.length = n ∧ v.length = p.vecSize ∧
        toVec p.vecSize v = Γ (toVec n x) ∧
        ∀ (i : Fin p.vecSize), ∀ j < n, fderiv ℝ Γ (toVec n x) (basis n j) i = P i j := by
  cases free with
  | true =>
    have hn' : p.freeSize = n := hn
    subst hn'
    obtain ⟨Γ, h1, h2, h3⟩ := (p.smooth_ftvP hw).exists_fun
    have hΓ : ContDiff ℝ 2 Γ := contDiff_pi.mpr h1
    refine ⟨Γ, hΓ, fun y hy => ⟨p.ftvP y, p.ftvP_length hw y hy, h2 y hy, ?_, ?_⟩, ?_⟩
    · simp only [setPar, if_true]
      rw [p.setFree_ok hw y hy]
    · simp only [setPar, if_true]
      rw [p.setFree_ok hw y hy, Param.mark_getVector]
      exact p.getVector_freeP hw hp y hy
    · intro x v P h
      have hx : x.length = p.freeSize := h.length
      have hv := h.value
      simp only [if_true] at hv
      rw [(p.freeToVectorVal_ok hw hp x hx).1] at hv
      cases hv
      refine ⟨hx, p.ftvP_length hw x hx, h2 x hx, fun i j hj => ?_⟩
      obtain ⟨p', J, hJ, hP⟩ := by simpa only [if_true] using h.jac
      obtain ⟨p'', J', hJ', ho⟩ := p.jac_ok hw hp x hx
      rw [hJ] at hJ'
      cases hJ'
      have hj' : j < p.freeSize := hj
      rw [hP i i.2 j hj', ho.val i i.2 j hj']
      have := Smooth.D1_eq (h1 i) (i := (i : ℕ)) (fun x hx => h3 i i.2 x hx) hx ⟨j, hj'⟩
      simp only at this
      rw [this, ← basis_eq hj']
      have hd : HasFDerivAt Γ (fderiv ℝ Γ (toVec p.freeSize x)) (toVec p.freeSize x) :=
        (hΓ.differentiable (by norm_num) _).hasFDerivAt
      have hi := (hasFDerivAt_pi'.1 hd i).fderiv
      rw [hi]
      rfl
  | false =>
    have hn' : p.vecSize = n := hn
    subst hn'
    refine ⟨id, contDiff_id, fun y hy => ⟨y, hy, rfl, ?_, ?_⟩, ?_⟩
    · simp only [setPar, Bool.false_eq_true, if_false]
      rw [p.setVector_ok hw y hy]
    · simp only [setPar, Bool.false_eq_true, if_false]
      rw [p.setVector_ok hw y hy, Param.mark_getVector]
      exact p.getVector_vecP hw hp y hy
    · intro x v P h
      have hx : x.length = p.vecSize := h.length
      have hv := h.value
      simp only [Bool.false_eq_true, if_false] at hv
      subst hv
      refine ⟨hx, hx, rfl, fun i j hj => ?_⟩
      have hP := h.jac
      simp only [Bool.false_eq_true, if_false] at hP
      rw [hP i i.2 j hj, fderiv_id]
      rfl

theorem getD_range_map {n i : ℕ} {g : ℕ → ℝ} (h : i < n) : ((List.range n).map g).getD i 0 = g i := by
  rw [List.getD_eq_getElem?_getD, List.getElem?_map, List.getElem?_range h]
  rfl

/-- The chain rule, with partial derivatives. -/
theorem fderiv_comp_coord {n m : ℕ} {Γ : (Fin n → ℝ) → Fin m → ℝ} {f : (Fin m → ℝ) → ℝ} {u : Fin n → ℝ}
    (hΓ : DifferentiableAt ℝ Γ u) (hf : DifferentiableAt ℝ f (Γ u)) (w : Fin n → ℝ) :
    fderiv ℝ (fun u => f (Γ u)) u w = ∑ i ∈ range m, fderiv ℝ f (Γ u) (basis m i) *
      (if h : i < m then fderiv ℝ Γ u w ⟨i, h⟩ else 0) := by
  have h1 : fderiv ℝ (fun u => f (Γ u)) u = (fderiv ℝ f (Γ u)).comp (fderiv ℝ Γ u) := fderiv_comp u hf hΓ
  rw [h1, ContinuousLinearMap.comp_apply, Finset.sum_range]
  conv_lhs => rw [basis_expand (fderiv ℝ Γ u w)]
  rw [map_sum]
  refine Finset.sum_congr rfl fun i _ => ?_
  rw [map_smul, smul_eq_mul, mul_comm, dif_pos i.2]

/-- An objective of the vector value, in coordinates. -/
theorem valueAt_coord {p : Param} {fn : Param → Py Arr} {F : (Fin p.vecSize → ℝ) → Arr} {free : Bool} {n : ℕ}
    {Γ : (Fin n → ℝ) → Fin p.vecSize → ℝ}
    (hfn : ∀ (q : Param) (v : List ℝ), q.getVector = .ok v → v.length = p.vecSize →
      fn q = .ok (F (toVec p.vecSize v)))
    (h2 : ∀ y : List ℝ, y.length = n → ∃ w, w.length = p.vecSize ∧
        toVec p.vecSize w = Γ (toVec n y) ∧ (setPar p y free).2 = none ∧
        ((setPar p y free).1.mark false).getVector = .ok w) (y : List ℝ) (hy : y.length = n) :
    valueAt fn p free y = .ok (F (Γ (toVec n y))) := by
  obtain ⟨w, hl, e1, e2, e3⟩ := h2 y hy
  unfold valueAt
  simp only [e2]
  rw [hfn _ _ e3 hl, e1]

theorem valueAt_vector {p : Param} (hw : p.WF) (hp : p.HasParams) {fn : Param → Py Arr}
    {F : (Fin p.vecSize → ℝ) → Arr} (hfn : ∀ (q : Param) (v : List ℝ), q.getVector = .ok v → v.length = p.vecSize →
      fn q = .ok (F (toVec p.vecSize v))) (y : List ℝ) (hy : y.length = p.vecSize) :
    valueAt fn p false y = .ok (F (toVec p.vecSize y)) := by
  obtain ⟨Δ, -, g2, g3⟩ := exists_coord hw hp false (n := p.vecSize) rfl
  rw [valueAt_coord hfn g2 y hy, ← (g3 y y (fun i j => if i = j then 1 else 0) ⟨hy, rfl, fun _ _ _ _ => rfl⟩).2.2.1]

/-- **C181** (coordinates) Every vector of the right length is made of coordinates of some vector value, and
the Jacobian exists. -/
theorem C181_coordinates {eigh : Eigh} (he : EighContract eigh) (p : Param) (hb : Built eigh p) (hp : p.HasParams)
    (free : Bool) (x : List ℝ) (hx : x.length = p.sizeIn free) : ∃ v P, Coordinates p free x v P := by
  have hw := hb.wf he
  cases free with
  | true =>
    obtain ⟨p', J, hJ, -⟩ := p.jac_ok hw hp x hx
    exact ⟨p.ftvP x, J.toDense, hx, (p.freeToVectorVal_ok hw hp x hx).1, p', J, hJ, fun _ _ _ _ => rfl⟩
  | false => exact ⟨x, fun i j => if i = j then 1 else 0, hx, rfl, fun _ _ _ _ => rfl⟩

/-- **C181** (gradient) Let the objective be a function of the vector value of its parameter.  Then the gradient
in the free values is the gradient in the vector at `free_to_vector(x)` times the Jacobian that
`free_to_vector_jac` returns. -/
theorem C181_gradient {eigh : Eigh} (he : EighContract eigh) (o : Objective A) (a : A)
    (hb : Built eigh o.par) (hp : o.par.HasParams) (f : (Fin o.par.vecSize → ℝ) → ℝ) (hf : ContDiff ℝ 2 f)
    (hfn : ∀ (q : Param) (v : List ℝ), q.getVector = .ok v → v.length = o.par.vecSize →
      o.fn a q = .ok (Arr.scalar (f (toVec o.par.vecSize v))))
    (x v : List ℝ) (P : ℕ → ℕ → ℝ) (hx : Coordinates o.par true x v P) :
    ∃ g gv, (o.funFreeGrad x a).2 = .ok g ∧ (o.funVectorGrad v a).2 = .ok gv ∧ g.length = o.par.freeSize ∧
      gv.length = o.par.vecSize ∧
      ∀ j < o.par.freeSize, g.getD j 0 = ∑ i ∈ range o.par.vecSize, gv.getD i 0 * P i j := by
  have hw := hb.wf he
  obtain ⟨Γ, h1, h2, h3⟩ := exists_coord hw hp true (n := o.par.freeSize) rfl
  obtain ⟨hxl, hvl, hv, hd⟩ := h3 x v P hx
  have hF := valueAt_coord (F := fun u => Arr.scalar (f u)) hfn h2
  have hFv := valueAt_vector (F := fun u => Arr.scalar (f u)) hw hp hfn
  refine ⟨(List.range o.par.freeSize).map fun j => fderiv ℝ (fun u => f (Γ u)) (toVec _ x) (basis _ j),
    (List.range o.par.vecSize).map fun j => fderiv ℝ f (toVec _ v) (basis _ j), ?_, ?_, by simp, by simp, ?_⟩
  · rw [Objective.funFreeGrad, o.deriv_value _ _ _ _ (valueAt_ok_set (hF _ hxl)), agGrad_ok (hf.comp h1) hF hxl]
    rfl
  · rw [Objective.funVectorGrad, o.deriv_value _ _ _ _ (valueAt_ok_set (hFv _ hvl)), agGrad_ok hf hFv hvl]
  · intro j hj
    rw [getD_range_map hj, fderiv_comp_coord (h1.differentiable (by norm_num) _) (hf.differentiable (by norm_num) _)]
    refine Finset.sum_congr rfl fun i hi => ?_
    have hi' := Finset.mem_range.1 hi
    rw [dif_pos hi', hd ⟨i, hi'⟩ j hj, getD_range_map hi', hv]

/-- **C181** (Jacobian) The same for objectives that return arrays: the Jacobian in the free values is the
Jacobian in the vector times that of `free_to_vector`. -/
theorem C181_jacobian {eigh : Eigh} (he : EighContract eigh) (o : Objective A) (a : A)
    (hb : Built eigh o.par) (hp : o.par.HasParams) (s : List ℕ) (hs : 0 < s.prod)
    (G : (Fin o.par.vecSize → ℝ) → ℕ → ℝ) (hG : ∀ i < s.prod, Differentiable ℝ fun u => G u i)
    (hfn : ∀ (q : Param) (v : List ℝ), q.getVector = .ok v → v.length = o.par.vecSize →
      o.fn a q = .ok ⟨s, (List.range s.prod).map (G (toVec o.par.vecSize v))⟩)
    (x v : List ℝ) (P : ℕ → ℕ → ℝ) (hx : Coordinates o.par true x v P) :
    ∃ J Jv, (o.funFreeJacobian x a).2 = .ok J ∧ (o.funVectorJacobian v a).2 = .ok Jv ∧
      J.shape = s ++ [o.par.freeSize] ∧ Jv.shape = s ++ [o.par.vecSize] ∧ J.WF ∧ Jv.WF ∧
      ∀ k < s.prod, ∀ j < o.par.freeSize, J.data.getD (k * o.par.freeSize + j) 0 =
        ∑ i ∈ range o.par.vecSize, Jv.data.getD (k * o.par.vecSize + i) 0 * P i j := by
  have hw := hb.wf he
  obtain ⟨Γ, h1, h2, h3⟩ := exists_coord hw hp true (n := o.par.freeSize) rfl
  obtain ⟨hxl, hvl, hv, hd⟩ := h3 x v P hx
  have hF := valueAt_coord (F := fun u => ⟨s, (List.range s.prod).map (G u)⟩) hfn h2
  have hFv := valueAt_vector (F := fun u => ⟨s, (List.range s.prod).map (G u)⟩) hw hp hfn
  have hval : ∀ y : List ℝ, y.length = o.par.freeSize → (o.funFree y a false).2 =
      .ok ⟨s, (List.range s.prod).map (G (Γ (toVec _ y)))⟩ := by
    intro y hy
    rw [Objective.funFree_value, hF y hy]
  have hvalv : ∀ y : List ℝ, y.length = o.par.vecSize → (o.funVector y a).2 =
      .ok ⟨s, (List.range s.prod).map (G (toVec _ y))⟩ := by
    intro y hy
    rw [← hFv y hy]
    simp only [Objective.funVector, valueAt, setPar, Bool.false_eq_true, if_false]
    cases (o.par.setVector y).2 <;> rfl
  have hΓd : Differentiable ℝ Γ := h1.differentiable (by norm_num)
  have hGΓ : ∀ i < s.prod, Differentiable ℝ fun u => G (Γ u) i := fun i hi => (hG i hi).comp hΓd
  obtain ⟨J, j1, j2, j3, j4⟩ := C86_jacobian o a true o.par.freeSize s hs (fun u => G (Γ u)) hGΓ
    (fun y hy => by rw [if_pos rfl]; exact hval y hy) x hxl
  obtain ⟨Jv, k1, k2, k3, k4⟩ := C86_jacobian o a false o.par.vecSize s hs G hG
    (fun y hy => by rw [if_neg (by simp)]; exact hvalv y hy) v hvl
  refine ⟨J, Jv, by simpa using j1, by simpa using k1, j3, k3, j2, k2, fun k hk j hj => ?_⟩
  have e1 : J.data.getD (k * o.par.freeSize + j) 0 = fderiv ℝ (fun u => G (Γ u) k) (toVec _ x) (basis _ j) := by
    refine PartialDeriv.unique (j4 k hk j hj) ⟨fun t => G (Γ (toVec _ (x.set j t))) k, fun t =>
      ⟨(List.range s.prod).map (G (Γ (toVec _ (x.set j t)))), ?_, ?_⟩,
      pd_hasDerivAt (hGΓ k hk) (fun _ _ => rfl) hxl hj⟩
    · rw [Objective.valueList_eq, hF _ (by simpa using hxl)]; rfl
    · simp [List.getElem?_range, hk]
  have e2 : ∀ i < o.par.vecSize, Jv.data.getD (k * o.par.vecSize + i) 0 =
      fderiv ℝ (fun u => G u k) (toVec _ v) (basis _ i) := by
    intro i hi
    refine PartialDeriv.unique (k4 k hk i hi) ⟨fun t => G (toVec _ (v.set i t)) k, fun t =>
      ⟨(List.range s.prod).map (G (toVec _ (v.set i t))), ?_, ?_⟩,
      pd_hasDerivAt (hG k hk) (fun _ _ => rfl) hvl hi⟩
    · rw [Objective.valueList_eq, hFv _ (by simpa using hvl)]; rfl
    · simp [List.getElem?_range, hk]
  rw [e1, fderiv_comp_coord (f := fun u => G u k) (hΓd _) (hG k hk _)]
  refine Finset.sum_congr rfl fun i hi => ?_
  have hi' := Finset.mem_range.1 hi
  rw [dif_pos hi', hd ⟨i, hi'⟩ j hj, e2 i hi', hv]

/-! ### Two parameters -/

section two

variable {n1 n2 m1 m2 : ℕ} {f : (Fin m1 → ℝ) × (Fin m2 → ℝ) → ℝ} {Γ1 : (Fin n1 → ℝ) → Fin m1 → ℝ}
  {Γ2 : (Fin n2 → ℝ) → Fin m2 → ℝ}

theorem contDiff_two (hf : ContDiff ℝ 2 f) (h1 : ContDiff ℝ 2 Γ1) (h2 : ContDiff ℝ 2 Γ2) :
    ContDiff ℝ 2 fun z : (Fin n1 → ℝ) × (Fin n2 → ℝ) => f (Γ1 z.1, Γ2 z.2) :=
  hf.comp ((h1.comp contDiff_fst).prodMk (h2.comp contDiff_snd))

theorem fderiv_two (hf : ContDiff ℝ 2 f) (h1 : ContDiff ℝ 2 Γ1) (h2 : ContDiff ℝ 2 Γ2) (u a : Fin n1 → ℝ)
    (v b : Fin n2 → ℝ) : fderiv ℝ (fun z : (Fin n1 → ℝ) × (Fin n2 → ℝ) => f (Γ1 z.1, Γ2 z.2)) (u, v) (a, b) =
      fderiv ℝ f (Γ1 u, Γ2 v) (fderiv ℝ Γ1 u a, fderiv ℝ Γ2 v b) := by
  have d1 : HasFDerivAt Γ1 (fderiv ℝ Γ1 u) u := (h1.differentiable (by norm_num) _).hasFDerivAt
  have d2 : HasFDerivAt Γ2 (fderiv ℝ Γ2 v) v := (h2.differentiable (by norm_num) _).hasFDerivAt
  have df : HasFDerivAt f (fderiv ℝ f (Γ1 u, Γ2 v)) (Γ1 u, Γ2 v) :=
    (hf.differentiable (by norm_num) _).hasFDerivAt
  have e1 : HasFDerivAt (fun z : (Fin n1 → ℝ) × (Fin n2 → ℝ) => Γ1 z.1)
      ((fderiv ℝ Γ1 u).comp (ContinuousLinearMap.fst ℝ _ _)) (u, v) := d1.comp (u, v) hasFDerivAt_fst
  have e2 : HasFDerivAt (fun z : (Fin n1 → ℝ) × (Fin n2 → ℝ) => Γ2 z.2)
      ((fderiv ℝ Γ2 v).comp (ContinuousLinearMap.snd ℝ _ _)) (u, v) := d2.comp (u, v) hasFDerivAt_snd
  have := (df.comp (u, v) (e1.prodMk e2)).fderiv
  rw [show (fun z : (Fin n1 → ℝ) × (Fin n2 → ℝ) => f (Γ1 z.1, Γ2 z.2)) = f ∘ fun z => (Γ1 z.1, Γ2 z.2) from rfl, this]
  rfl

/-- The mixed second derivative. -/
theorem fderiv2_two (hf : ContDiff ℝ 2 f) (h1 : ContDiff ℝ 2 Γ1) (h2 : ContDiff ℝ 2 Γ2) (u a : Fin n1 → ℝ)
    (v b : Fin n2 → ℝ) :
    fderiv ℝ (fderiv ℝ fun z : (Fin n1 → ℝ) × (Fin n2 → ℝ) => f (Γ1 z.1, Γ2 z.2)) (u, v) (0, b) (a, 0) =
      fderiv ℝ (fderiv ℝ f) (Γ1 u, Γ2 v) (0, fderiv ℝ Γ2 v b) (fderiv ℝ Γ1 u a, 0) := by
  have hF := contDiff_two hf h1 h2
  have g1 := (grad1_hasFDerivAt hF u a v).fderiv
  have e : (fun v => fderiv ℝ (fun z : (Fin n1 → ℝ) × (Fin n2 → ℝ) => f (Γ1 z.1, Γ2 z.2)) (u, v) (a, 0)) =
      fun v => fderiv ℝ f (Γ1 u, Γ2 v) (fderiv ℝ Γ1 u a, 0) := by
    funext v
    rw [fderiv_two hf h1 h2, map_zero]
  have d2 : HasFDerivAt Γ2 (fderiv ℝ Γ2 v) v := (h2.differentiable (by norm_num) _).hasFDerivAt
  have g2 := ((grad1_hasFDerivAt hf (Γ1 u) (fderiv ℝ Γ1 u a) (Γ2 v)).comp v d2).fderiv
  have : fderiv ℝ (fun v => fderiv ℝ (fun z : (Fin n1 → ℝ) × (Fin n2 → ℝ) => f (Γ1 z.1, Γ2 z.2)) (u, v) (a, 0)) v b =
      fderiv ℝ ((fun v => fderiv ℝ f (Γ1 u, v) (fderiv ℝ Γ1 u a, 0)) ∘ Γ2) v b := by
    rw [e]
    rfl
  rw [g1, g2] at this
  simpa using this

end two

theorem evalFun_coord {o : TwoObjective A} {a : A} {f : (Fin o.par1.vecSize → ℝ) × (Fin o.par2.vecSize → ℝ) → ℝ}
    (hfn : ∀ (q1 q2 : Param) (v1 v2 : List ℝ), q1.getVector = .ok v1 → q2.getVector = .ok v2 →
      v1.length = o.par1.vecSize → v2.length = o.par2.vecSize →
      o.fn a q1 q2 = .ok (Arr.scalar (f (toVec _ v1, toVec _ v2)))) {n1 n2 : ℕ} {free1 free2 : Bool}
    {Γ1 : (Fin n1 → ℝ) → Fin o.par1.vecSize → ℝ} {Γ2 : (Fin n2 → ℝ) → Fin o.par2.vecSize → ℝ}
    (h1 : ∀ y : List ℝ, y.length = n1 → ∃ w, w.length = o.par1.vecSize ∧
        toVec o.par1.vecSize w = Γ1 (toVec n1 y) ∧ (setPar o.par1 y free1).2 = none ∧
        ((setPar o.par1 y free1).1.mark false).getVector = .ok w)
    (h2 : ∀ y : List ℝ, y.length = n2 → ∃ w, w.length = o.par2.vecSize ∧
        toVec o.par2.vecSize w = Γ2 (toVec n2 y) ∧ (setPar o.par2 y free2).2 = none ∧
        ((setPar o.par2 y free2).1.mark false).getVector = .ok w) (y1 y2 : List ℝ) (hy1 : y1.length = n1)
    (hy2 : y2.length = n2) : (o.evalFun y1 y2 free1 free2 a).2 =
      .ok (Arr.scalar ((fun z : (Fin n1 → ℝ) × (Fin n2 → ℝ) => f (Γ1 z.1, Γ2 z.2)) (toVec n1 y1, toVec n2 y2))) := by
  obtain ⟨w1, l1, e1, s1, g1⟩ := h1 y1 hy1
  obtain ⟨w2, l2, e2, s2, g2⟩ := h2 y2 hy2
  simp only [TwoObjective.evalFun, s1, s2]
  rw [hfn _ _ _ _ g1 g2 l1 l2, e1, e2]

/-- **C181** (two parameters) Let the objective be a function of the vector values of its two parameters.  Then
in all four combinations of free values and vector entries, the gradients and the off-diagonal Hessian are
those in the vectors, multiplied by the Jacobians of the parameters that are given by free values. -/
theorem C181_two_parameters {eigh : Eigh} (he : EighContract eigh) (o : TwoObjective A) (a : A)
    (hb1 : Built eigh o.par1) (hb2 : Built eigh o.par2) (hp1 : o.par1.HasParams) (hp2 : o.par2.HasParams)
    (f : (Fin o.par1.vecSize → ℝ) × (Fin o.par2.vecSize → ℝ) → ℝ) (hf : ContDiff ℝ 2 f)
    (hfn : ∀ (q1 q2 : Param) (v1 v2 : List ℝ), q1.getVector = .ok v1 → q2.getVector = .ok v2 →
      v1.length = o.par1.vecSize → v2.length = o.par2.vecSize →
      o.fn a q1 q2 = .ok (Arr.scalar (f (toVec _ v1, toVec _ v2))))
    (free1 free2 : Bool) (hn1 : 0 < o.par1.sizeIn free1) (hm1 : 0 < o.par1.vecSize) (x1 x2 v1 v2 : List ℝ)
    (P1 P2 : ℕ → ℕ → ℝ) (hx1 : Coordinates o.par1 free1 x1 v1 P1) (hx2 : Coordinates o.par2 free2 x2 v2 P2) :
    ∃ g1 g1v g2 g2v H Hv,
      (o.funGrad1 x1 x2 free1 free2 a).2 = .ok g1 ∧ (o.funGrad1 v1 v2 false false a).2 = .ok g1v ∧
      (o.funGrad2 x1 x2 free1 free2 a).2 = .ok g2 ∧ (o.funGrad2 v1 v2 false false a).2 = .ok g2v ∧
      (o.hessian12 x1 x2 free1 free2 a).2 = .ok H ∧ (o.hessian12 v1 v2 false false a).2 = .ok Hv ∧
      g1.length = o.par1.sizeIn free1 ∧ g2.length = o.par2.sizeIn free2 ∧
      IsMat H (o.par1.sizeIn free1) (o.par2.sizeIn free2) ∧ IsMat Hv o.par1.vecSize o.par2.vecSize ∧
      (∀ j < o.par1.sizeIn free1, g1.getD j 0 = ∑ i ∈ range o.par1.vecSize, g1v.getD i 0 * P1 i j) ∧
      (∀ j < o.par2.sizeIn free2, g2.getD j 0 = ∑ i ∈ range o.par2.vecSize, g2v.getD i 0 * P2 i j) ∧
      ∀ j < o.par1.sizeIn free1, ∀ k < o.par2.sizeIn free2, H.at2 j k =
        ∑ i ∈ range o.par1.vecSize, ∑ l ∈ range o.par2.vecSize, P1 i j * Hv.at2 i l * P2 l k := by
  obtain ⟨n1, hn1'⟩ : ∃ n, o.par1.sizeIn free1 = n := ⟨_, rfl⟩
  obtain ⟨n2, hn2'⟩ : ∃ n, o.par2.sizeIn free2 = n := ⟨_, rfl⟩
  obtain ⟨Γ1, c1, s1, t1⟩ := exists_coord (hb1.wf he) hp1 free1 hn1'
  obtain ⟨Γ2, c2, s2, t2⟩ := exists_coord (hb2.wf he) hp2 free2 hn2'
  obtain ⟨x1l, v1l, e1, d1⟩ := t1 _ _ _ hx1
  obtain ⟨x2l, v2l, e2, d2⟩ := t2 _ _ _ hx2
  rw [hn1', hn2']
  rw [hn1'] at hn1
  have hval := evalFun_coord hfn s1 s2
  have hvalv : ∀ y1 y2 : List ℝ, y1.length = o.par1.vecSize → y2.length = o.par2.vecSize →
      (o.evalFun y1 y2 false false a).2 = .ok (Arr.scalar (f (toVec _ y1, toVec _ y2))) := by
    intro y1 y2 hy1 hy2
    obtain ⟨Δ1, -, r1, q1⟩ := exists_coord (hb1.wf he) hp1 false (n := o.par1.vecSize) rfl
    obtain ⟨Δ2, -, r2, q2⟩ := exists_coord (hb2.wf he) hp2 false (n := o.par2.vecSize) rfl
    rw [evalFun_coord hfn r1 r2 y1 y2 hy1 hy2]
    simp only
    rw [← (q1 y1 y1 (fun i j => if i = j then 1 else 0) ⟨hy1, rfl, fun _ _ _ _ => rfl⟩).2.2.1,
      ← (q2 y2 y2 (fun i j => if i = j then 1 else 0) ⟨hy2, rfl, fun _ _ _ _ => rfl⟩).2.2.1]
  have hF := contDiff_two hf c1 c2
  obtain ⟨p1, p2⟩ := TwoObjective.evalFun_ok (hval x1 x2 x1l x2l)
  obtain ⟨p1', p2'⟩ := TwoObjective.evalFun_ok (hvalv v1 v2 v1l v2l)
  have a1 := o.cacheAndEval_ok (t1 := true) (t2 := false)
    (agGrad1_ok (F := o.valueAt free1 free2 a) hF hval x1l x2l) p1 p2
  have a1v := o.cacheAndEval_ok (t1 := true) (t2 := false)
    (agGrad1_ok (F := o.valueAt false false a) hf hvalv v1l v2l) p1' p2'
  have a2 := o.cacheAndEval_ok (t1 := false) (t2 := true)
    (agGrad2_ok (F := o.valueAt free1 free2 a) hF hval x1l x2l) p1 p2
  have a2v := o.cacheAndEval_ok (t1 := false) (t2 := true)
    (agGrad2_ok (F := o.valueAt false false a) hf hvalv v1l v2l) p1' p2'
  have a3 := o.cacheAndEval_ok (t1 := true) (t2 := true)
    (agHessian12_ok (F := o.valueAt free1 free2 a) hF hval x1l x2l hn1) p1 p2
  have a3v := o.cacheAndEval_ok (t1 := true) (t2 := true)
    (agHessian12_ok (F := o.valueAt false false a) hf hvalv v1l v2l hm1) p1' p2'
  have D1 : ∀ j < n1, fderiv ℝ Γ1 (toVec n1 x1) (basis n1 j) =
      ∑ i : Fin o.par1.vecSize, P1 i j • basis o.par1.vecSize i := by
    intro j hj
    rw [basis_expand (fderiv ℝ Γ1 (toVec n1 x1) (basis n1 j))]
    exact Finset.sum_congr rfl fun i _ => by rw [d1 i j hj]
  have D2 : ∀ j < n2, fderiv ℝ Γ2 (toVec n2 x2) (basis n2 j) =
      ∑ i : Fin o.par2.vecSize, P2 i j • basis o.par2.vecSize i := by
    intro j hj
    rw [basis_expand (fderiv ℝ Γ2 (toVec n2 x2) (basis n2 j))]
    exact Finset.sum_congr rfl fun i _ => by rw [d2 i j hj]
  refine ⟨_, _, _, _, _, _, by rw [TwoObjective.funGrad1, a1], by rw [TwoObjective.funGrad1, a1v],
    by rw [TwoObjective.funGrad2, a2], by rw [TwoObjective.funGrad2, a2v], by rw [TwoObjective.hessian12, a3],
    by rw [TwoObjective.hessian12, a3v], by simp, by simp, ⟨Arr.ofFn2_WF _ _ _, rfl⟩, ⟨Arr.ofFn2_WF _ _ _, rfl⟩,
    ?_, ?_, ?_⟩
  · intro j hj
    rw [getD_range_map hj, fderiv_two hf c1 c2, map_zero, D1 j hj, Finset.sum_range]
    rw [show ((∑ i : Fin o.par1.vecSize, P1 i j • basis o.par1.vecSize i, 0) :
        (Fin o.par1.vecSize → ℝ) × (Fin o.par2.vecSize → ℝ)) =
        ∑ i : Fin o.par1.vecSize, P1 i j • (basis o.par1.vecSize i, 0) by
      rw [Prod.ext_iff]
      simp [Prod.fst_sum, Prod.snd_sum], map_sum]
    refine Finset.sum_congr rfl fun i _ => ?_
    rw [map_smul, smul_eq_mul, mul_comm, getD_range_map i.2, e1, e2]
  · intro j hj
    rw [getD_range_map hj, fderiv_two hf c1 c2, map_zero, D2 j hj, Finset.sum_range]
    rw [show ((0, ∑ i : Fin o.par2.vecSize, P2 i j • basis o.par2.vecSize i) :
        (Fin o.par1.vecSize → ℝ) × (Fin o.par2.vecSize → ℝ)) =
        ∑ i : Fin o.par2.vecSize, P2 i j • (0, basis o.par2.vecSize i) by
      rw [Prod.ext_iff]
      simp [Prod.fst_sum, Prod.snd_sum], map_sum]
    refine Finset.sum_congr rfl fun i _ => ?_
    rw [map_smul, smul_eq_mul, mul_comm, getD_range_map i.2, e1, e2]
  · intro j hj k hk
    rw [Arr.at2_ofFn2 _ _ _ hj hk, fderiv2_two hf c1 c2, D1 j hj, D2 k hk, Finset.sum_range]
    rw [show ((∑ i : Fin o.par1.vecSize, P1 i j • basis o.par1.vecSize i, 0) :
        (Fin o.par1.vecSize → ℝ) × (Fin o.par2.vecSize → ℝ)) =
        ∑ i : Fin o.par1.vecSize, P1 i j • (basis o.par1.vecSize i, 0) by
      rw [Prod.ext_iff]
      simp [Prod.fst_sum, Prod.snd_sum],
      show ((0, ∑ i : Fin o.par2.vecSize, P2 i k • basis o.par2.vecSize i) :
        (Fin o.par1.vecSize → ℝ) × (Fin o.par2.vecSize → ℝ)) =
        ∑ i : Fin o.par2.vecSize, P2 i k • (0, basis o.par2.vecSize i) by
      rw [Prod.ext_iff]
      simp [Prod.fst_sum, Prod.snd_sum], map_sum, map_sum]
    refine Finset.sum_congr rfl fun i _ => ?_
    rw [ContinuousLinearMap.sum_apply, Finset.sum_range]
    refine Finset.sum_congr rfl fun l _ => ?_
    rw [Arr.at2_ofFn2 _ _ _ i.2 l.2, map_smul, map_smul, ContinuousLinearMap.smul_apply, e1, e2]
    simp only [smul_eq_mul]
    ring

/-! ### Conversions -/

/-- The entries of a conversion Jacobian. -/
theorem jacobian_entries {eigh : Eigh} (he : EighContract eigh) (c : Converter)
    (hc : ∀ p q, (c.conv p q).1.blank = q.blank) (hb : Built eigh c.parOut)
    (hp : c.parOut.HasParams) (hv : c.parOut.Proper) (freeIn freeOut : Bool) (n m : ℕ) (hm : 0 < m)
    (G : (Fin n → ℝ) → ℕ → ℝ) (hG : ∀ i < m, Differentiable ℝ fun u => G u i)
    (hval : ∀ y : List ℝ, y.length = n →
      (c.convert freeIn freeOut y).2 = .ok ((List.range m).map (G (toVec n y))))
    (x : List ℝ) (hx : x.length = n) :
    ∃ J, (c.jacobian freeIn freeOut x).2 = .ok J ∧ IsMat J m n ∧
      ∀ i < m, ∀ j < n, J.at2 i j = fderiv ℝ (fun u => G u i) (toVec n x) (basis n j) := by
  obtain ⟨J, w, c', h1, h2, h3, -⟩ := C49_jacobian he c hc hb hp hv freeIn freeOut n m hm G hG hval x hx
  refine ⟨J, by rw [h1], h2, fun i hi j hj => ?_⟩
  refine PartialDeriv.unique (h3 i hi j hj) ⟨fun s => G (toVec n (x.set j s)) i, fun s =>
    ⟨_, hval _ (by simpa using hx), ?_⟩, pd_hasDerivAt (hG i hi) (fun _ _ => rfl) hx hj⟩
  simp [List.getElem?_range, hi]

/-- **C181** (conversion, input side) Let the converter compute the output from the vector value of the input.
Then the Jacobians that start from free values are those that start from vectors, at `free_to_vector(x)`,
times the Jacobian of `free_to_vector` of the input parameter. -/
theorem C181_converter_input {eigh : Eigh} (he : EighContract eigh) (c : Converter)
    (hc : ∀ p q, (c.conv p q).1.blank = q.blank) (hbi : Built eigh c.parIn) (hpi : c.parIn.HasParams)
    (hb : Built eigh c.parOut) (hp : c.parOut.HasParams) (hv : c.parOut.Proper) (freeOut : Bool)
    (hm : 0 < c.parOut.sizeIn freeOut) (G : (Fin c.parIn.vecSize → ℝ) → ℕ → ℝ)
    (hG : ∀ i < c.parOut.sizeIn freeOut, Differentiable ℝ fun u => G u i)
    (hconv : ∀ (q : Param) (v : List ℝ), q.getVector = .ok v → v.length = c.parIn.vecSize →
      (c.conv q c.parOut).2 = none ∧ (if freeOut then (c.conv q c.parOut).1.getFree else
        (c.conv q c.parOut).1.getVector) = .ok ((List.range (c.parOut.sizeIn freeOut)).map (G (toVec _ v))))
    (x v : List ℝ) (P : ℕ → ℕ → ℝ) (hx : Coordinates c.parIn true x v P) :
    ∃ J Jv, (c.jacobian true freeOut x).2 = .ok J ∧ (c.jacobian false freeOut v).2 = .ok Jv ∧
      IsMat J (c.parOut.sizeIn freeOut) c.parIn.freeSize ∧ IsMat Jv (c.parOut.sizeIn freeOut) c.parIn.vecSize ∧
      ∀ i < c.parOut.sizeIn freeOut, ∀ j < c.parIn.freeSize, J.at2 i j =
        ∑ k ∈ range c.parIn.vecSize, Jv.at2 i k * P k j := by
  obtain ⟨Γ, h1, h2, h3⟩ := exists_coord (hbi.wf he) hpi true (n := c.parIn.freeSize) rfl
  obtain ⟨hxl, hvl, hve, hd⟩ := h3 x v P hx
  have hval : ∀ (free : Bool) (n : ℕ) (Δ : (Fin n → ℝ) → Fin c.parIn.vecSize → ℝ),
      (∀ y : List ℝ, y.length = n → ∃ w, w.length = c.parIn.vecSize ∧
        toVec c.parIn.vecSize w = Δ (toVec n y) ∧ (setPar c.parIn y free).2 = none ∧
        ((setPar c.parIn y free).1.mark false).getVector = .ok w) → ∀ y : List ℝ, y.length = n →
      (c.convert free freeOut y).2 = .ok ((List.range (c.parOut.sizeIn freeOut)).map (G (Δ (toVec n y)))) := by
    intro free n Δ h y hy
    obtain ⟨w, l, e, s, g⟩ := h y hy
    obtain ⟨k1, k2⟩ := hconv _ w g l
    simp only [Converter.convert, s, k1, Converter.readOut]
    rw [k2, e]
  obtain ⟨Δ, -, g2, g3⟩ := exists_coord (hbi.wf he) hpi false (n := c.parIn.vecSize) rfl
  have hΓd : Differentiable ℝ Γ := h1.differentiable (by norm_num)
  obtain ⟨J, j1, j2, j3⟩ := jacobian_entries he c hc hb hp hv true freeOut c.parIn.freeSize _ hm
    (fun u => G (Γ u)) (fun i hi => (hG i hi).comp hΓd) (hval true _ Γ h2) x hxl
  obtain ⟨Jv, k1, k2, k3⟩ := jacobian_entries he c hc hb hp hv false freeOut c.parIn.vecSize _ hm G hG
    (fun y hy => by
      rw [hval false _ Δ g2 y hy,
        ← (g3 y y (fun i j => if i = j then 1 else 0) ⟨hy, rfl, fun _ _ _ _ => rfl⟩).2.2.1]) v hvl
  refine ⟨J, Jv, j1, k1, j2, k2, fun i hi j hj => ?_⟩
  rw [j3 i hi j hj, fderiv_comp_coord (f := fun u => G u i) (hΓd _) (hG i hi _)]
  refine Finset.sum_congr rfl fun k hk => ?_
  have hk' := Finset.mem_range.1 hk
  rw [dif_pos hk', hd ⟨k, hk'⟩ j hj, k3 i hi k hk', hve]

/-- **C181** (conversion, output side) The Jacobians of the vector output are the Jacobian of `free_to_vector` of
the output parameter, at the free output, times those of the free output; provided that the free output
stands for the vector output, as it does for all values inside the bounds. -/
theorem C181_converter_output {eigh : Eigh} (he : EighContract eigh) (c : Converter)
    (hc : ∀ p q, (c.conv p q).1.blank = q.blank) (hb : Built eigh c.parOut) (hp : c.parOut.HasParams)
    (hv : c.parOut.Proper) (freeIn : Bool) (n : ℕ) (hmf : 0 < c.parOut.freeSize) (hmv : 0 < c.parOut.vecSize)
    (GF GV : (Fin n → ℝ) → ℕ → ℝ) (hGF : ∀ i < c.parOut.freeSize, Differentiable ℝ fun u => GF u i)
    (hGV : ∀ i < c.parOut.vecSize, Differentiable ℝ fun u => GV u i)
    (hF : ∀ y : List ℝ, y.length = n →
      (c.convert freeIn true y).2 = .ok ((List.range c.parOut.freeSize).map (GF (toVec n y))))
    (hV : ∀ y : List ℝ, y.length = n →
      (c.convert freeIn false y).2 = .ok ((List.range c.parOut.vecSize).map (GV (toVec n y))))
    (hcons : ∀ (y fo vo : List ℝ), y.length = n → (c.convert freeIn true y).2 = .ok fo → (c.convert freeIn false y).2 = .ok vo →
      c.parOut.freeToVectorVal fo = .ok vo)
    (x fo vo : List ℝ) (hx : x.length = n) (hfo : (c.convert freeIn true x).2 = .ok fo) (P : ℕ → ℕ → ℝ)
    (hP : Coordinates c.parOut true fo vo P) :
    ∃ JF JV, (c.jacobian freeIn true x).2 = .ok JF ∧ (c.jacobian freeIn false x).2 = .ok JV ∧
      IsMat JF c.parOut.freeSize n ∧ IsMat JV c.parOut.vecSize n ∧
      ∀ i < c.parOut.vecSize, ∀ j < n, JV.at2 i j =
        ∑ k ∈ range c.parOut.freeSize, P i k * JF.at2 k j := by
  have hw := hb.wf he
  obtain ⟨JF, a1, a2, a3⟩ := jacobian_entries he c hc hb hp hv freeIn true n _ hmf GF hGF hF x hx
  obtain ⟨JV, b1, b2, b3⟩ := jacobian_entries he c hc hb hp hv freeIn false n _ hmv GV hGV hV x hx
  refine ⟨JF, JV, a1, b1, a2, b2, fun i hi j hj => ?_⟩
  obtain ⟨Γ, h1, h2, h3⟩ := exists_coord hw hp true (n := c.parOut.freeSize) rfl
  obtain ⟨hfl, hvl, hve, hd⟩ := h3 fo vo P hP
  have hΓd : Differentiable ℝ Γ := h1.differentiable (by norm_num)
  set K : (Fin n → ℝ) → Fin c.parOut.freeSize → ℝ := fun u k => GF u k with hK
  have hKd : Differentiable ℝ K := differentiable_pi.2 fun k => hGF k k.2
  have hKv : ∀ y : List ℝ, y.length = n → ∀ fo', (c.convert freeIn true y).2 = .ok fo' →
      fo'.length = c.parOut.freeSize ∧ toVec c.parOut.freeSize fo' = K (toVec n y) := by
    intro y hy fo' h
    rw [hF y hy] at h
    cases h
    refine ⟨by simp, ?_⟩
    funext k
    simp only [hK, toVec]
    rw [getD_range_map k.2]
  have hcomp : (fun u => GV u i) = fun u => Γ (K u) ⟨i, hi⟩ := by
    funext u
    obtain ⟨y, hy, rfl⟩ := exists_toVec u
    obtain ⟨l1, l2⟩ := hKv y hy _ (hF y hy)
    have hc' := hcons y _ _ hy (hF y hy) (hV y hy)
    obtain ⟨p', J, hJ, -⟩ := c.parOut.jac_ok hw hp _ l1
    obtain ⟨-, -, e, -⟩ := h3 _ _ J.toDense ⟨l1, hc', p', J, hJ, fun _ _ _ _ => rfl⟩
    rw [← l2, ← e]
    simp only [toVec]
    rw [getD_range_map hi]
  obtain ⟨l1, l2⟩ := hKv x hx fo hfo
  have hu : toVec c.parOut.freeSize fo = K (toVec n x) := l2
  have hΓi : Differentiable ℝ fun u => Γ u ⟨i, hi⟩ := fun u => (differentiableAt_pi.1 (hΓd u)) ⟨i, hi⟩
  rw [b3 i hi j hj, hcomp, fderiv_comp_coord (f := fun u => Γ u ⟨i, hi⟩) (hKd _) (hΓi _)]
  refine Finset.sum_congr rfl fun k hk => ?_
  have hk' := Finset.mem_range.1 hk
  rw [dif_pos hk', a3 k hk' j hj]
  have f1 : fderiv ℝ (fun u => Γ u ⟨i, hi⟩) (K (toVec n x)) (basis _ k) = P i k := by
    rw [← hu, ← hd ⟨i, hi⟩ k hk',
      (hasFDerivAt_pi'.1 (hΓd (toVec c.parOut.freeSize fo)).hasFDerivAt ⟨i, hi⟩).fderiv]
    rfl
  have f2 : fderiv ℝ K (toVec n x) (basis n j) ⟨k, hk'⟩ = fderiv ℝ (fun u => GF u k) (toVec n x) (basis n j) := by
    rw [show (fun u => GF u k) = fun u => K u ⟨k, hk'⟩ from rfl,
      (hasFDerivAt_pi'.1 (hKd (toVec n x)).hasFDerivAt ⟨k, hk'⟩).fderiv]
    rfl
  rw [f1, f2]

/-- **C181** (converters ending by `set_vector`) If for every input the conversion function stores a legal
vector in the output parameter with `set_vector`, the two outputs describe the same value, and the Jacobian
of the vector output is the one of the free output times the derivative of the parameter. -/
theorem C181_converter_set_vector {eigh : Eigh} (he : EighContract eigh) (c : Converter)
    (hc : ∀ p q, (c.conv p q).1.blank = q.blank) (hb : Built eigh c.parOut) (hp : c.parOut.HasParams)
    (hv : c.parOut.Proper) (freeIn : Bool) (n : ℕ) (hmf : 0 < c.parOut.freeSize) (hmv : 0 < c.parOut.vecSize)
    (GF GV : (Fin n → ℝ) → ℕ → ℝ) (hGF : ∀ i < c.parOut.freeSize, Differentiable ℝ fun u => GF u i)
    (hGV : ∀ i < c.parOut.vecSize, Differentiable ℝ fun u => GV u i)
    (hF : ∀ y : List ℝ, y.length = n →
      (c.convert freeIn true y).2 = .ok ((List.range c.parOut.freeSize).map (GF (toVec n y))))
    (hV : ∀ y : List ℝ, y.length = n → (setPar c.parIn y freeIn).2 = none ∧
      c.parOut.LegalVec ((List.range c.parOut.vecSize).map (GV (toVec n y))) ∧
      c.conv ((setPar c.parIn y freeIn).1.mark false) c.parOut =
        c.parOut.setVector ((List.range c.parOut.vecSize).map (GV (toVec n y))))
    (x fo vo : List ℝ) (hx : x.length = n) (hfo : (c.convert freeIn true x).2 = .ok fo) (P : ℕ → ℕ → ℝ)
    (hP : Coordinates c.parOut true fo vo P) :
    ∃ JF JV, (c.jacobian freeIn true x).2 = .ok JF ∧ (c.jacobian freeIn false x).2 = .ok JV ∧
      IsMat JF c.parOut.freeSize n ∧ IsMat JV c.parOut.vecSize n ∧
      ∀ i < c.parOut.vecSize, ∀ j < n, JV.at2 i j =
        ∑ k ∈ range c.parOut.freeSize, P i k * JF.at2 k j := by
  have key : ∀ y : List ℝ, y.length = n → ∃ fo,
      (c.convert freeIn true y).2 = .ok fo ∧
      (c.convert freeIn false y).2 = .ok ((List.range c.parOut.vecSize).map (GV (toVec n y))) ∧
      c.parOut.freeToVectorVal fo = .ok ((List.range c.parOut.vecSize).map (GV (toVec n y))) := by
    intro y hy
    obtain ⟨h1, h2, h3⟩ := hV y hy
    have hl : ((List.range c.parOut.vecSize).map (GV (toVec n y))).length = c.parOut.vecSize := by simp
    obtain ⟨p', z, e1, e2, e3, e4, e5⟩ := C150_set_vector_get_free he c.parOut hb hp _ hl h2
    obtain ⟨d', g1, g2⟩ := C34_vector_round_trip he c.parOut hb hp _ hl
    rw [e1] at g1
    cases g1
    rw [e1] at h3
    refine ⟨z, ?_, ?_, e4⟩
    · simp only [Converter.convert, h1, h3, Converter.readOut, if_true]
      exact e2
    · simp only [Converter.convert, h1, h3, Converter.readOut, Bool.false_eq_true, if_false]
      exact g2
  refine C181_converter_output he c hc hb hp hv freeIn n hmf hmv GF GV hGF hGV hF
    (fun y hy => (key y hy).choose_spec.2.1) ?_ x fo vo hx hfo P hP
  intro y fo' vo' hy h1 h2
  obtain ⟨z, k1, k2, k3⟩ := key y hy
  rw [k1] at h1
  rw [k2] at h2
  cases h1
  cases h2
  exact k3

/-- The hypotheses about objectives are met by the sum of the vector value of the example dictionary and the
product of two such sums; the dictionary contains a positive parameter and a positive definite matrix. -/
example : (∀ eigh, Built eigh exObj.par ∧ Built eigh exTwo.par1 ∧ Built eigh exTwo.par2) ∧ exObj.par.HasParams ∧
    0 < exTwo.par1.sizeIn true ∧ 0 < exTwo.par1.vecSize ∧
    (∀ (q : Param) (v : List ℝ), q.getVector = .ok v → v.length = exObj.par.vecSize →
      exObj.fn () q = .ok (Arr.scalar (∑ i, toVec exObj.par.vecSize v i))) ∧
    (∀ (q1 q2 : Param) (v1 v2 : List ℝ), q1.getVector = .ok v1 → q2.getVector = .ok v2 →
      v1.length = exTwo.par1.vecSize → v2.length = exTwo.par2.vecSize → exTwo.fn () q1 q2 =
        .ok (Arr.scalar ((∑ i, toVec exTwo.par1.vecSize v1 i) * ∑ i, toVec exTwo.par2.vecSize v2 i))) ∧
    ContDiff ℝ 2 (fun u : (Fin exTwo.par1.vecSize → ℝ) × (Fin exTwo.par2.vecSize → ℝ) => (∑ i, u.1 i) * ∑ i, u.2 i) := by
  have hs : ∀ (m : ℕ) (v : List ℝ), v.length = m → v.sum = ∑ i, toVec m v i := by
    intro m v hv
    rw [← hv, ← List.sum_ofFn]
    congr 1
    apply List.ext_getElem (by simp)
    intro i h1 h2
    simp [toVec, List.getD_eq_getElem?_getD, h1]
  refine ⟨fun e => ⟨exDict_built e, exDict_built e, exDict_built e⟩, exDict_hasParams, ?_, ?_, ?_, ?_, ?_⟩
  · show 0 < exDict.freeSize
    rw [exDict_freeSize]; norm_num
  · show 0 < exDict.vecSize
    rw [exDict_vecSize]; norm_num
  · intro q v hq hv
    simp only [exObj, Objective.new, hq, py_ok_bind]
    rw [hs _ v hv]
    rfl
  · intro q1 q2 v1 v2 h1 h2 l1 l2
    simp only [exTwo, h1, h2, py_ok_bind]
    rw [hs _ v1 l1, hs _ v2 l2]
    rfl
  · exact (ContDiff.sum fun i _ => (contDiff_apply ℝ ℝ i).comp contDiff_fst).mul
      (ContDiff.sum fun i _ => (contDiff_apply ℝ ℝ i).comp contDiff_snd)

/-- Doubling a positive number: the vector output is `2 exp(x)`, the free output `x + log 2`. -/
noncomputable def exDouble : Converter := ⟨scPar (Flt.fin 0), scPar (Flt.fin 0), doubling⟩

theorem exDouble_convert (y : List ℝ) (hy : y.length = 1) :
    (exDouble.convert true true y).2 = .ok [y.getD 0 0 + Real.log 2] ∧
    (exDouble.convert true false y).2 = .ok [2 * Real.exp (y.getD 0 0)] := by
  obtain ⟨t, rfl⟩ := List.length_eq_one_iff.1 hy
  have hw : (scPar (Flt.fin 0)).WF := by simp [scPar, Param.WF, Kind.Legal]
  have e1 := scPar_getVector (Flt.fin 0) (by simp) true t
  have hc := constrainFn_zero
  have e2 : ([2 * Real.exp t] : List ℝ) = [Real.exp (t + Real.log 2)] := by
    rw [Real.exp_add, Real.exp_log two_pos, mul_comm]
  have e3 : (scPar (Flt.fin 0)).vecP [Real.exp (t + Real.log 2)] = (scPar (Flt.fin 0)).freeP [t + Real.log 2] := by
    have := hc (t + Real.log 2)
    rw [← this]
    rfl
  have e4 : (doubling ((setPar (scPar (Flt.fin 0)) [t] true).1.mark false) (scPar (Flt.fin 0))) =
      ((scPar (Flt.fin 0)).freeP [t + Real.log 2], none) := by
    rw [doubling, e1.2]
    simp only [if_true, hc, List.map_cons, List.map_nil]
    rw [e2, (scPar (Flt.fin 0)).setVector_ok hw _ rfl, e3]
  constructor
  · simp only [Converter.convert, exDouble, e1.1, e4, Converter.readOut, if_true]
    exact (scPar (Flt.fin 0)).getFree_freeP hw trivial _ rfl
  · simp only [Converter.convert, exDouble, e1.1, e4, Converter.readOut, Bool.false_eq_true, if_false]
    rw [(scPar (Flt.fin 0)).getVector_freeP hw trivial _ rfl, show [t].getD 0 0 = t from rfl, e2, ← hc]
    rfl

/-- The hypotheses about conversions are met by doubling, with free input. -/
example : (∀ eigh, Built eigh exDouble.parIn ∧ Built eigh exDouble.parOut) ∧ exDouble.parOut.HasParams ∧
    exDouble.parOut.Proper ∧ (∀ p q, (exDouble.conv p q).1.blank = q.blank) ∧
    exDouble.parOut.freeSize = 1 ∧ exDouble.parOut.vecSize = 1 ∧
    (∀ y : List ℝ, y.length = 1 → (exDouble.convert true true y).2 =
      .ok ((List.range 1).map fun _ => toVec 1 y 0 + Real.log 2)) ∧
    (∀ y : List ℝ, y.length = 1 → (exDouble.convert true false y).2 =
      .ok ((List.range 1).map fun _ => 2 * Real.exp (toVec 1 y 0))) ∧
    (∀ y fo vo : List ℝ, y.length = 1 → (exDouble.convert true true y).2 = .ok fo →
      (exDouble.convert true false y).2 = .ok vo → exDouble.parOut.freeToVectorVal fo = .ok vo) ∧
    (Differentiable ℝ fun u : Fin 1 → ℝ => u 0 + Real.log 2) ∧
    Differentiable ℝ fun u : Fin 1 → ℝ => 2 * Real.exp (u 0) := by
  have hb : ∀ e, Built e (scPar (Flt.fin 0)) := fun e =>
    .leaf ⟨_, [], .scalar (name := "s") (lb := Flt.fin 0) (ub := Flt.pinf) (val := some (Arr.scalar 1))
      (by simp [mkScalar, checkBoundsScalar, Leaf.set]), rfl⟩ trivial
  refine ⟨fun e => ⟨hb e, hb e⟩, trivial, ?_, ?_, rfl, rfl,
    fun y hy => by rw [(exDouble_convert y hy).1]; rfl, fun y hy => by rw [(exDouble_convert y hy).2]; rfl, ?_,
    by fun_prop, by fun_prop⟩
  · simp [exDouble, scPar, Param.Proper, Leaf.Proper, Arr.WF, Arr.size, Arr.scalar]
  · intro p q
    simp only [exDouble]
    unfold doubling
    split
    · rfl
    · exact Param.setVector_blank _ _
  · intro y fo vo hy h1 h2
    rw [(exDouble_convert y hy).1] at h1
    rw [(exDouble_convert y hy).2] at h2
    cases h1
    cases h2
    show (scPar (Flt.fin 0)).freeToVectorVal _ = _
    rw [scPar_ftv _ (by simp), constrainFn_zero, Real.exp_add, Real.exp_log two_pos, mul_comm]

/-- `C181_converter_set_vector` applies to doubling: it stores the legal vector `2 exp(x)`. -/
example (y : List ℝ) (hy : y.length = 1) : (setPar exDouble.parIn y true).2 = none ∧
    exDouble.parOut.LegalVec ((List.range 1).map fun _ => 2 * Real.exp (toVec 1 y 0)) ∧
    exDouble.conv ((setPar exDouble.parIn y true).1.mark false) exDouble.parOut =
      exDouble.parOut.setVector ((List.range 1).map fun _ => 2 * Real.exp (toVec 1 y 0)) := by
  obtain ⟨t, rfl⟩ := List.length_eq_one_iff.1 hy
  have e1 := scPar_getVector (Flt.fin 0) (by simp) true t
  refine ⟨e1.1, ?_, ?_⟩
  · simp only [exDouble, scPar, Param.LegalVec, Kind.LegalVec]
    simp [Real.exp_pos]
  · show doubling _ _ = _
    rw [doubling]
    simp only [exDouble]
    rw [e1.2]
    simp only [if_true, constrainFn_zero, List.map_cons, List.map_nil]
    rfl

end LRVB
