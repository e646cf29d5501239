import Verif.Props.ConvexLegal
import Verif.Props.Coordinates
import Verif.Props.Precond
import Mathlib.Analysis.Convex.SpecificFunctions.Basic

/-!
# C196 and C181 for objectives that are smooth at the legal values
-/

namespace LRVB

variable {A : Type}

/-- `f` is twice continuously differentiable at the vector of every free vector.  Outside of the legal vectors
nothing is asked, so that logarithms of positive values and entropies are allowed. -/
def SmoothOnLegal (p : Param) (f : (Fin p.vecSize → ℝ) → ℝ) : Prop :=
  ∀ y v, y.length = p.freeSize → p.freeToVectorVal y = .ok v → ContDiffAt ℝ 2 f (toVec p.vecSize v)

/-- Such an objective is a smooth function of the free vector. -/
theorem exists_smooth_coord {eigh : Eigh} (he : EighContract eigh) {p : Param} (hb : Built eigh p) (hp : p.HasParams)
    {f : (Fin p.vecSize → ℝ) → ℝ} (hf : SmoothOnLegal p f) {fn : Param → Py Arr}
    (hfn : ∀ (q : Param) (v : List ℝ), q.getVector = .ok v → v.length = p.vecSize →
      fn q = .ok (Arr.scalar (f (toVec p.vecSize v)))) :
    ∃ Γ : (Fin p.freeSize → ℝ) → Fin p.vecSize → ℝ, ContDiff ℝ 2 (fun u => f (Γ u)) ∧
      (∀ y : List ℝ, y.length = p.freeSize → valueAt fn p true y = .ok (Arr.scalar (f (Γ (toVec p.freeSize y))))) ∧
      ∀ z : List ℝ, z.length = p.freeSize → ∃ v, p.freeToVectorVal z = .ok v ∧
        toVec p.vecSize v = Γ (toVec _ z) := by
  obtain ⟨Γ, h1, h2, h3⟩ := exists_coord (hb.wf he) hp true (n := p.freeSize) rfl
  have hΓ : ∀ z : List ℝ, z.length = p.freeSize → ∃ v, p.freeToVectorVal z = .ok v ∧
      toVec p.vecSize v = Γ (toVec _ z) := by
    intro z hz
    obtain ⟨v, P, hP⟩ := C181_coordinates he p hb hp true z hz
    exact ⟨v, by simpa using hP.value, (h3 z v P hP).2.2.1⟩
  refine ⟨Γ, contDiff_iff_contDiffAt.mpr fun u => ?_, valueAt_coord (F := fun u => Arr.scalar (f u)) hfn h2, hΓ⟩
  obtain ⟨v, hv, ev⟩ := hΓ (List.ofFn u) (by simp)
  have hu : toVec p.freeSize (List.ofFn u) = u := toVec_ofFn u
  rw [hu] at ev
  have := hf _ v (by simp) hv
  rw [ev] at this
  exact this.comp u h1.contDiffAt

/-- The gradient of a function that is differentiable at the point. -/
theorem agGrad_at {m : ℕ} {F : List ℝ → Py Arr} {f : (Fin m → ℝ) → ℝ}
    (hF : ∀ y : List ℝ, y.length = m → F y = .ok (Arr.scalar (f (toVec m y)))) {x : List ℝ}
    (hx : x.length = m) (hf : DifferentiableAt ℝ f (toVec m x)) :
    agGrad F x = .ok ((List.range m).map fun j => fderiv ℝ f (toVec m x) (basis m j)) := by
  rw [agGrad, hF x hx, py_ok_bind, if_neg (by simp [Arr.size, Arr.scalar])]
  congr 1
  rw [hx]
  apply List.map_congr_left
  intro j hj
  have hj := List.mem_range.mp hj
  have hd := hf.hasFDerivAt
  have hup := _root_.hasDerivAt_update (toVec m x) ⟨j, hj⟩ (x.getD j 0)
  have hself : Function.update (toVec m x) ⟨j, hj⟩ (x.getD j 0) = toVec m x := by
    have : x.getD j 0 = toVec m x ⟨j, hj⟩ := rfl
    rw [this, Function.update_eq_self]
  rw [← hself] at hd
  have h4 := hd.comp_hasDerivAt _ hup
  rw [hself, ← basis_eq hj] at h4
  have h5 : (fun s => entryA 0 (F (x.set j s))) = f ∘ Function.update (toVec m x) ⟨j, hj⟩ := by
    funext s
    rw [hF _ (by simpa using hx), toVec_set hx ⟨j, hj⟩ s]
    rfl
  rw [pd, h5]
  exact h4.deriv

/-- **C181** (gradient, legal values) The chain rule of `C181_gradient` for objectives that are smooth at the legal
vectors only, e.g. with logarithms of positive parameters. -/
theorem C181_gradient_legal {eigh : Eigh} (he : EighContract eigh) (o : Objective A) (a : A)
    (hb : Built eigh o.par) (hp : o.par.HasParams) (f : (Fin o.par.vecSize → ℝ) → ℝ) (hf : SmoothOnLegal o.par f)
    (hfn : ∀ (q : Param) (v : List ℝ), q.getVector = .ok v → v.length = o.par.vecSize →
      o.fn a q = .ok (Arr.scalar (f (toVec o.par.vecSize v))))
    (x v : List ℝ) (P : ℕ → ℕ → ℝ) (hx : Coordinates o.par true x v P) :
    ∃ g gv, (o.funFreeGrad x a).2 = .ok g ∧ (o.funVectorGrad v a).2 = .ok gv ∧ g.length = o.par.freeSize ∧
      gv.length = o.par.vecSize ∧
      ∀ j < o.par.freeSize, g.getD j 0 = ∑ i ∈ Finset.range o.par.vecSize, gv.getD i 0 * P i j := by
  have hw := hb.wf he
  obtain ⟨Γ, h1, h2, h3⟩ := exists_coord hw hp true (n := o.par.freeSize) rfl
  obtain ⟨hxl, hvl, hv, hd⟩ := h3 x v P hx
  have hF := valueAt_coord (F := fun u => Arr.scalar (f u)) hfn h2
  have hFv := valueAt_vector (F := fun u => Arr.scalar (f u)) hw hp hfn
  have hfv : DifferentiableAt ℝ f (toVec o.par.vecSize v) :=
    (hf x v hxl (by simpa using hx.value)).differentiableAt (by norm_num)
  have hfΓ : DifferentiableAt ℝ f (Γ (toVec o.par.freeSize x)) := hv ▸ hfv
  have hΓ := h1.differentiable (by norm_num) (toVec o.par.freeSize x)
  refine ⟨(List.range o.par.freeSize).map fun j => fderiv ℝ (fun u => f (Γ u)) (toVec _ x) (basis _ j),
    (List.range o.par.vecSize).map fun j => fderiv ℝ f (toVec _ v) (basis _ j), ?_, ?_, by simp, by simp, ?_⟩
  · rw [Objective.funFreeGrad, o.deriv_value _ _ _ _ (valueAt_ok_set (hF _ hxl)),
      agGrad_at (f := fun u => f (Γ u)) hF hxl (hfΓ.comp _ hΓ)]
  · rw [Objective.funVectorGrad, o.deriv_value _ _ _ _ (valueAt_ok_set (hFv _ hvl)), agGrad_at hFv hvl hfv]
  · intro j hj
    rw [getD_range_map hj, fderiv_comp_coord hΓ hfΓ]
    refine Finset.sum_congr rfl fun i hi => ?_
    have hi' := Finset.mem_range.1 hi
    rw [dif_pos hi', hd ⟨i, hi'⟩ j hj, getD_range_map hi', hv]

/-- **C196** (zero gradient) Let the objective be a function of the vector value of its parameter, convex on the
legal vectors.  If `fun_free_grad(x)` returns zeros then no free vector has a smaller `fun_free`. -/
theorem C196_zero_gradient {eigh : Eigh} (he : EighContract eigh) (o : Objective A) (a : A)
    (hb : Built eigh o.par) (hp : o.par.HasParams) (f : (Fin o.par.vecSize → ℝ) → ℝ) (hf : SmoothOnLegal o.par f)
    (hfn : ∀ (q : Param) (v : List ℝ), q.getVector = .ok v → v.length = o.par.vecSize →
      o.fn a q = .ok (Arr.scalar (f (toVec o.par.vecSize v))))
    (hc : ConvexOnLegal o.par fun u => f (toVec o.par.vecSize u))
    (x g : List ℝ) (hx : x.length = o.par.freeSize) (hg : (o.funFreeGrad x a).2 = .ok g)
    (h0 : ∀ j < o.par.freeSize, g.getD j 0 = 0) (y : List ℝ) (hy : y.length = o.par.freeSize) :
    ∃ r s : ℝ, (o.funFree x a false).2 = .ok (Arr.scalar r) ∧ (o.funFree y a false).2 = .ok (Arr.scalar s) ∧
      r ≤ s := by
  obtain ⟨Γ, h1, hF, hΓ⟩ := exists_smooth_coord he hb hp hf hfn
  obtain ⟨v, hv, ev⟩ := hΓ x hx
  obtain ⟨w, hwv, ew⟩ := hΓ y hy
  have hgd : ∀ j < o.par.freeSize, fderiv ℝ (fun u => f (Γ u)) (toVec _ x) (basis _ j) = 0 := by
    intro j hj
    rw [Objective.funFreeGrad, o.deriv_value _ _ _ _ (valueAt_ok_set (hF _ hx)), agGrad_ok h1 hF hx] at hg
    have := h0 j hj
    rw [← Except.ok.inj hg, getD_range_map hj] at this
    exact this
  have key := C196_stationary_is_global he o.par hb hp f hc x v hx hv ((hf x v hx hv).differentiableAt (by norm_num))
    (fun j hj => by
      refine ⟨fun s => f (Γ (toVec _ (x.set j s))), fun s => ?_, ?_⟩
      · obtain ⟨u, hu, eu⟩ := hΓ (x.set j s) (by simpa using hx)
        exact ⟨[f (toVec _ u)], by rw [Param.freeObjective, hu, py_ok_bind], by simp [eu]⟩
      · have hd := (h1.differentiable (by norm_num) (toVec o.par.freeSize x)).hasFDerivAt
        have hup := _root_.hasDerivAt_update (toVec o.par.freeSize x) ⟨j, hj⟩ (x.getD j 0)
        have hself : Function.update (toVec o.par.freeSize x) ⟨j, hj⟩ (x.getD j 0) = toVec o.par.freeSize x := by
          have : x.getD j 0 = toVec o.par.freeSize x ⟨j, hj⟩ := rfl
          rw [this, Function.update_eq_self]
        rw [← hself] at hd
        have h4 := hd.comp_hasDerivAt _ hup
        rw [hself, ← basis_eq hj] at h4
        rw [hgd j hj] at h4
        refine h4.congr_of_eventuallyEq (Filter.Eventually.of_forall fun s => ?_)
        simp only [Function.comp_apply]
        rw [← toVec_set hx ⟨j, hj⟩ s])
    y w hy hwv
  refine ⟨f (toVec _ v), f (toVec _ w), ?_, ?_, key⟩
  · rw [Objective.funFree_value, hF x hx, ev]
  · rw [Objective.funFree_value, hF y hy, ew]

/-- **C196** (zero conditioned gradient) The same in the coordinates of a preconditioner whose columns span the
free vectors: if `fun_free_grad_cond(x)` returns zeros then no free vector has a smaller `fun_free`. -/
theorem C196_zero_conditioned_gradient {eigh : Eigh} (he : EighContract eigh) (o : Objective A) (a : A)
    (hb : Built eigh o.par) (hp : o.par.HasParams) (f : (Fin o.par.vecSize → ℝ) → ℝ) (hf : SmoothOnLegal o.par f)
    (hfn : ∀ (q : Param) (v : List ℝ), q.getVector = .ok v → v.length = o.par.vecSize →
      o.fn a q = .ok (Arr.scalar (f (toVec o.par.vecSize v))))
    (hc : ConvexOnLegal o.par fun u => f (toVec o.par.vecSize u))
    (P : Arr) (n : ℕ) (hPre : o.precond = some P) (hP : IsMat P o.par.freeSize n)
    (hspan : ∀ u : List ℝ, u.length = o.par.freeSize → ∃ z, z.length = n ∧ P.mulVec z = .ok u)
    (x g : List ℝ) (hx : x.length = n) (hg : (o.funFreeGradCond x a).2 = .ok g)
    (h0 : ∀ j < n, g.getD j 0 = 0) (y : List ℝ) (hy : y.length = o.par.freeSize) :
    ∃ r s : ℝ, (o.funFreeCond x a false).2 = .ok (Arr.scalar r) ∧ (o.funFree y a false).2 = .ok (Arr.scalar s) ∧
      r ≤ s := by
  set m := o.par.freeSize with hm
  have hxl : (mulVecFn P m n x).length = m := by simp
  obtain ⟨G, hG, hGl⟩ : ∃ G, (o.funFreeGrad (mulVecFn P m n x) a).2 = .ok G ∧ G.length = m := by
    obtain ⟨Γ, h1, hF, -⟩ := exists_smooth_coord he hb hp hf hfn
    refine ⟨(List.range m).map fun j => fderiv ℝ (fun u => f (Γ u)) (toVec m (mulVecFn P m n x)) (basis m j), ?_,
      by simp⟩
    rw [Objective.funFreeGrad, o.deriv_value _ _ _ _ (valueAt_ok_set (hF _ hxl)), agGrad_ok h1 hF hxl]
  have hTs : P.transpose.shape = [n, m] := by simp [hP.2]
  have hTat : ∀ i < n, ∀ k < m, P.transpose.at2 i k = P.at2 k i := by
    intro i hi k hk
    unfold Arr.transpose
    rw [hP.2]
    exact Arr.at2_ofFn2 _ _ _ (by simpa using hi) (by simpa using hk)
  have hg' : g = mulVecFn P.transpose n m G := by
    simp only [Objective.funFreeGradCond, hPre, Objective.conditionedX, mulVec_ok hP.2 hx] at hg
    rw [hG, py_ok_bind, mulVec_ok hTs hGl] at hg
    exact (Except.ok.inj hg).symm
  have hG0 : ∀ k < m, G.getD k 0 = 0 := by
    intro k hk
    obtain ⟨z, hz, ez⟩ := hspan ((List.range m).map fun i => if i = k then 1 else 0) (by simp)
    rw [mulVec_ok hP.2 hz] at ez
    have ez' := Except.ok.inj ez
    have hrow : ∀ i < m, (∑ j ∈ Finset.range n, P.at2 i j * z.getD j 0) = if i = k then 1 else 0 := by
      intro i hi
      rw [← mulVecFn_getD P m n z hi, ez', getD_range_map hi]
    have hcol : ∀ j < n, (∑ i ∈ Finset.range m, P.at2 i j * G.getD i 0) = 0 := by
      intro j hj
      have e := h0 j hj
      rw [hg', mulVecFn_getD _ _ _ _ hj] at e
      refine Eq.trans ?_ e
      exact Finset.sum_congr rfl fun i hi => by rw [hTat j hj i (Finset.mem_range.1 hi)]
    calc G.getD k 0 = ∑ i ∈ Finset.range m, (if i = k then 1 else 0) * G.getD i 0 := by simp [hk]
      _ = ∑ i ∈ Finset.range m, (∑ j ∈ Finset.range n, P.at2 i j * z.getD j 0) * G.getD i 0 :=
        Finset.sum_congr rfl fun i hi => by rw [hrow i (Finset.mem_range.1 hi)]
      _ = ∑ j ∈ Finset.range n, z.getD j 0 * ∑ i ∈ Finset.range m, P.at2 i j * G.getD i 0 := by
        simp only [Finset.sum_mul, Finset.mul_sum]
        rw [Finset.sum_comm]
        exact Finset.sum_congr rfl fun j _ => Finset.sum_congr rfl fun i _ => by ring
      _ = 0 := Finset.sum_eq_zero fun j hj => by rw [hcol j (Finset.mem_range.1 hj), mul_zero]
  obtain ⟨r, s, hr, hs, hrs⟩ := C196_zero_gradient he o a hb hp f hf hfn hc _ G hxl hG hG0 y hy
  refine ⟨r, s, ?_, hs, hrs⟩
  simp only [Objective.funFreeCond, hPre, Objective.conditionedX, mulVec_ok hP.2 hx]
  exact hr

/-- The hypotheses are met: the squared distance of the vector value of the example dictionary to `[1, 2, 3]`,
preconditioned with twice the identity. -/
example : ∃ (eigh : Eigh) (o : Objective Unit) (f : (Fin o.par.vecSize → ℝ) → ℝ) (P : Arr) (x u : List ℝ) (g : List ℝ),
    EighContract eigh ∧ Built eigh o.par ∧ o.par.HasParams ∧ SmoothOnLegal o.par f ∧
    (∀ (q : Param) (v : List ℝ), q.getVector = .ok v → v.length = o.par.vecSize →
      o.fn () q = .ok (Arr.scalar (f (toVec o.par.vecSize v)))) ∧
    (ConvexOnLegal o.par fun u => f (toVec o.par.vecSize u)) ∧ o.precond = some P ∧
    IsMat P o.par.freeSize 3 ∧
    (∀ u : List ℝ, u.length = o.par.freeSize → ∃ z, z.length = 3 ∧ P.mulVec z = .ok u) ∧
    u.length = o.par.freeSize ∧ x.length = 3 ∧ P.mulVec x = .ok u ∧ (o.funFreeGrad u ()).2 = .ok g ∧
    (∀ j < o.par.freeSize, g.getD j 0 = 0) := by
  obtain ⟨eigh, he⟩ := exists_eigh
  have hb := exDict_built eigh
  have hlen : ([1, 2, 3] : List ℝ).length = exDict.vecSize := by rw [exDict_vecSize]; rfl
  have hl : exDict.LegalVec [1, 2, 3] := by
    simp [exDict, exSub, exScalar, exVector, Param.push, Param.emptyDict, Param.LegalVec,
      Entries.LegalVec, Kind.LegalVec, Entries.assign, Param.name, Param.vecSize, Kind.vecSize, Leaf.vecSize]
  obtain ⟨u, ⟨hu, hv⟩, -⟩ := (C150_image he exDict hb exDict_hasParams _ hlen).mp hl
  set c : Fin exDict.vecSize → ℝ := toVec exDict.vecSize [1, 2, 3] with hc
  set f : (Fin exDict.vecSize → ℝ) → ℝ := fun u => ∑ k, (u k - c k) ^ 2 with hf
  have hcd : ContDiff ℝ 2 f := by fun_prop
  set P := Arr.ofFn2 3 3 (fun i j => if i = j then 2 else 0) with hPd
  set o : Objective Unit := { exObj with
    fn := fun _ q => do let v ← q.getVector; .ok (Arr.scalar (f (toVec exDict.vecSize v)))
    precond := some P } with ho
  have hfs : exDict.freeSize = 3 := exDict_freeSize
  have hP : IsMat P exDict.freeSize 3 := by
    rw [hfs]; exact ⟨Arr.ofFn2_WF _ _ _, rfl⟩
  have hspan : ∀ u : List ℝ, u.length = exDict.freeSize → ∃ z, z.length = 3 ∧ P.mulVec z = .ok u := by
    intro u hu
    rw [hfs] at hu
    refine ⟨u.map (· / 2), by simpa using hu, ?_⟩
    rw [mulVec_ok (r := 3) (c := 3) rfl (by simpa using hu)]
    congr 1
    match u, hu with
    | [p, q, r], _ =>
      simp [mulVecFn, List.range_succ, Finset.sum_range_succ, hPd, Arr.at2_ofFn2]
      refine ⟨?_, ?_, ?_⟩ <;> ring
  have hfn : ∀ (q : Param) (v : List ℝ), q.getVector = .ok v → v.length = o.par.vecSize →
      o.fn () q = .ok (Arr.scalar (f (toVec o.par.vecSize v))) := by
    intro q v hq _
    simp only [ho, hq, py_ok_bind]
    rfl
  obtain ⟨x, hx, hxu⟩ := hspan u hu
  obtain ⟨w, J, hJ⟩ := C181_coordinates he o.par hb exDict_hasParams true u hu
  have hwv : w = [1, 2, 3] := by
    have := hJ.value
    simp only [if_true] at this
    have hv' : o.par.freeToVectorVal u = .ok [1, 2, 3] := hv
    rw [hv'] at this
    exact (Except.ok.inj this).symm
  obtain ⟨g, gv, hg, hgv, -, -, hgs⟩ := C181_gradient he o () hb exDict_hasParams f hcd hfn u w J hJ
  have hfd : fderiv ℝ f c = 0 := by
    apply IsLocalMin.fderiv_eq_zero
    refine Filter.Eventually.of_forall fun u => ?_
    have : f c = 0 := by simp [hf]
    change f c ≤ f u
    rw [this]
    exact Finset.sum_nonneg fun _ _ => sq_nonneg _
  have hgv0 : ∀ i < o.par.vecSize, gv.getD i 0 = 0 := by
    intro i hi
    have hFv := valueAt_vector (p := o.par) (F := fun u => Arr.scalar (f u)) (hb.wf he) exDict_hasParams hfn
    have hwl : w.length = o.par.vecSize := by rw [hwv]; exact hlen
    rw [Objective.funVectorGrad, o.deriv_value _ _ _ _ (valueAt_ok_set (hFv _ hwl)), agGrad_ok hcd hFv hwl] at hgv
    have hi' : i < exDict.vecSize := hi
    rw [← Except.ok.inj hgv, getD_range_map hi', hwv]
    change fderiv ℝ f c _ = 0
    rw [hfd]; rfl
  refine ⟨eigh, o, f, P, x, u, g, he, hb, exDict_hasParams, fun _ _ _ _ => hcd.contDiffAt, hfn, ?_, rfl, hP, hspan, hu, hx, hxu, hg, ?_⟩
  · have := (sqDist_strictConvex he hb exDict_hasParams [1, 2, 3]).convex
    change ConvexOnLegal exDict fun u => f (toVec exDict.vecSize u)
    convert this using 2
    rw [hf, Finset.sum_range]
    rfl
  · intro j hj
    rw [hgs j hj]
    exact Finset.sum_eq_zero fun i hi => by rw [hgv0 i (Finset.mem_range.1 hi), zero_mul]

/-- Objectives with logarithms are covered: `v - log v` for a positive scalar `v` is smooth and convex on the legal
values, although it is not even continuous at zero. -/
example : (∀ eigh, Built eigh (scPar (Flt.fin 0))) ∧ (scPar (Flt.fin 0)).HasParams ∧
    SmoothOnLegal (scPar (Flt.fin 0)) (fun u => u (0 : Fin 1) - Real.log (u (0 : Fin 1))) ∧
    ConvexOnLegal (scPar (Flt.fin 0)) (fun v => toVec 1 v 0 - Real.log (toVec 1 v 0)) := by
  have hb : ∀ e, Built e (scPar (Flt.fin 0)) := fun e =>
    .leaf ⟨_, [], .scalar (name := "s") (lb := Flt.fin 0) (ub := Flt.pinf) (val := some (Arr.scalar 1))
      (by simp [mkScalar, checkBoundsScalar, Leaf.set]), rfl⟩ trivial
  obtain ⟨eigh, he⟩ := exists_eigh
  have hpos : ∀ y v, y.length = (scPar (Flt.fin 0)).freeSize → (scPar (Flt.fin 0)).freeToVectorVal y = .ok v →
      v.length = 1 ∧ 0 < v.getD 0 0 := by
    intro y v hy hv
    obtain ⟨l, k⟩ := legal_of_free he (hb eigh) trivial hy hv
    have l' : v.length = 1 := l
    obtain ⟨t, rfl⟩ := List.length_eq_one_iff.1 l'
    have k' : ∀ a ∈ [t], Flt.fin 0 < Flt.fin a ∧ Flt.fin a < Flt.pinf := k
    exact ⟨rfl, (k' t (by simp)).1⟩
  refine ⟨hb, trivial, fun y v hy hv => ?_, fun x y v w t hx hy hv hw h0 h1 => ?_⟩
  · have hne : toVec 1 v 0 ≠ 0 := (hpos y v hy hv).2.ne'
    have h2 : ContDiffAt ℝ 2 (fun u : Fin 1 → ℝ => u 0 - Real.log (u 0)) (toVec 1 v) :=
      (contDiff_apply ℝ ℝ (0 : Fin 1)).contDiffAt.sub ((contDiff_apply ℝ ℝ (0 : Fin 1)).contDiffAt.log hne)
    exact h2
  · obtain ⟨lv, pv⟩ := hpos x v hx hv
    obtain ⟨lw, pw⟩ := hpos y w hy hw
    have hlog := strictConcaveOn_log_Ioi.concaveOn.2 (Set.mem_Ioi.2 pv) (Set.mem_Ioi.2 pw) h0.le
      (sub_nonneg.2 h1.le) (by ring)
    simp only [smul_eq_mul] at hlog
    change (mixVec t v w).getD 0 0 - Real.log ((mixVec t v w).getD 0 0) ≤
      t * (v.getD 0 0 - Real.log (v.getD 0 0)) + (1 - t) * (w.getD 0 0 - Real.log (w.getD 0 0))
    rw [mixVec_getD (lv.trans lw.symm)]
    linarith

end LRVB
