import Verif.Lemmas.FullRank
import Verif.Props.DictDeriv
import Mathlib.LinearAlgebra.Matrix.NonsingularInverse
import Mathlib.Analysis.Calculus.LocalExtr.Basic

/-!
# C147: the free parameterization creates no stationary points and loses no directions
-/

namespace LRVB

open Flt

/-- **C147** (full rank) At every free vector the columns of `free_to_vector_jac` are linearly
independent: no direction of the free vector leaves the vector unchanged to first order. -/
theorem C147_full_rank {eigh : Eigh} (he : EighContract eigh) (d : Param) (hb : Built eigh d)
    (hp : d.HasParams) (x : List ℝ) (hx : x.length = d.freeSize) :
    ∃ d' J, d.jac x = (d', .ok J) ∧ J.nr = d.vecSize ∧ J.nc = d.freeSize ∧
      ∀ u : ℕ → ℝ, (∀ i < d.vecSize, ∑ j ∈ Finset.range d.freeSize, J.toDense i j * u j = 0) →
        ∀ j < d.freeSize, u j = 0 := by
  have hw := hb.wf he
  obtain ⟨d', J, h1, h2⟩ := d.jac_ok hw hp x hx
  refine ⟨d', J, h1, h2.nr, h2.nc, fun u hu => ?_⟩
  refine d.rank_ftvP hw hx u fun i hi => ?_
  rw [← hu i hi]
  exact Finset.sum_congr rfl fun j hj => by rw [h2.val i hi j (Finset.mem_range.mp hj)]

/-- A covector killed by the transposed Jacobian is zero, when there are as many free values as
vector entries. -/
theorem Param.transposed_rank (p : Param) (hw : p.WF) (hs : p.freeSize = p.vecSize) {x : List ℝ}
    (hx : x.length = p.freeSize) (g : Fin p.vecSize → ℝ)
    (h : ∀ a < p.freeSize, ∑ i : Fin p.vecSize, D1 p.ftvP x i a * g i = 0) : g = 0 := by
  have hr := p.rank_ftvP hw hx
  let A : Matrix (Fin p.vecSize) (Fin p.vecSize) ℝ := fun i j => D1 p.ftvP x i j
  have hinj : Function.Injective A.mulVec := by
    refine (LinearMap.ker_eq_bot (f := A.mulVecLin)).mp ?_
    rw [LinearMap.ker_eq_bot']
    intro w hw'
    have key := hr (fun j => if hj : j < p.vecSize then w ⟨j, hj⟩ else 0) (fun i hi => by
      have := congrFun hw' ⟨i, hi⟩
      rw [Matrix.mulVecLin_apply] at this
      rw [hs, Finset.sum_range]
      simpa [Matrix.mulVec, dotProduct, A] using this)
    funext j
    have := key j (by rw [hs]; exact j.2)
    simpa using this
  have hu : IsUnit A := Matrix.mulVec_injective_iff_isUnit.mp hinj
  have hv : Function.Injective A.vecMul := Matrix.vecMul_injective_iff_isUnit.mpr hu
  apply hv
  funext a
  have := h a (by rw [hs]; exact a.2)
  simp only [Matrix.vecMul, dotProduct, A, Pi.zero_apply, zero_mul, Finset.sum_const_zero]
  rw [← this]
  exact Finset.sum_congr rfl fun i _ => mul_comm _ _

/-- **C147** (stationary points) For a parameter or dictionary with as many free values as vector
entries (everything but simplexes and subspaces), the gradient of an objective in the free
parameterization vanishes at `x` exactly when the objective's own gradient vanishes at
`free_to_vector(x)`. -/
theorem C147_stationary {eigh : Eigh} (he : EighContract eigh) (p : Param) (hb : Built eigh p)
    (hp : p.HasParams) (hs : p.freeSize = p.vecSize) (x : List ℝ) (hx : x.length = p.freeSize)
    (f : (Fin p.vecSize → ℝ) → ℝ)
    (hf : ∀ (y v : List ℝ), y.length = p.freeSize → p.freeToVectorVal y = .ok v →
      ContDiffAt ℝ 2 f (toVec p.vecSize v))
    (v : List ℝ) (hxv : p.freeToVectorVal x = .ok v) :
    (∀ a < p.freeSize, PartialDeriv (p.freeObjective f) 0 a x 0) ↔
      fderiv ℝ f (toVec p.vecSize v) = 0 := by
  have hw := hb.wf he
  have hsm := p.smooth_ftvP hw
  have hf' : ∀ y : List ℝ, y.length = p.freeSize → ContDiffAt ℝ 2 f (toVec p.vecSize (p.ftvP y)) :=
    fun y hy => hf y _ hy (p.freeToVectorVal_ok hw hp y hy).1
  have hvx : v = p.ftvP x := by
    rw [(p.freeToVectorVal_ok hw hp x hx).1] at hxv
    exact (Except.ok.inj hxv).symm
  have hF : ∀ y : List ℝ, y.length = p.freeSize →
      p.freeObjective f y = .ok (objG p.vecSize f p.ftvP y) ∧
        (objG p.vecSize f p.ftvP y).length = 1 := by
    intro y hy
    refine ⟨?_, rfl⟩
    rw [Param.freeObjective, (p.freeToVectorVal_ok hw hp y hy).1, py_ok_bind]
    rfl
  have hpd : ∀ a < p.freeSize, PartialDeriv (p.freeObjective f) 0 a x
      (∑ i : Fin p.vecSize, D1 p.ftvP x i a * fderiv ℝ f (toVec p.vecSize v) (Pi.single i 1)) := by
    intro a ha
    have := (smooth_objG hsm hf').partialDeriv hF hx Nat.one_pos ha
    rw [D1_objG hsm hf' hx ha, ← hvx] at this
    exact this
  have huniq : ∀ a c d, PartialDeriv (p.freeObjective f) 0 a x c →
      PartialDeriv (p.freeObjective f) 0 a x d → c = d := by
    rintro a c d ⟨g1, h1, h1'⟩ ⟨g2, h2, h2'⟩
    have : g1 = g2 := by
      funext s
      obtain ⟨w, hw1, hw2⟩ := h1 s
      obtain ⟨w', hw1', hw2'⟩ := h2 s
      rw [hw1] at hw1'
      cases hw1'
      rw [hw2] at hw2'
      exact Option.some.inj hw2'
    subst this
    exact h1'.unique h2'
  constructor
  · intro h
    have hg := p.transposed_rank hw hs hx
      (fun i => fderiv ℝ f (toVec p.vecSize v) (Pi.single i 1))
      fun a ha => huniq a _ _ (hpd a ha) (h a ha)
    ext w
    rw [clm_apply_sum]
    have : ∀ i, fderiv ℝ f (toVec p.vecSize v) (Pi.single i 1) = 0 := fun i => congrFun hg i
    simp [this]
  · intro h a ha
    have := hpd a ha
    simpa [h] using this

/-- **C147** (curvature) At a stationary point of the objective whose vector Hessian is positive
definite, the matrix returned by `convert_vector_to_free_hessian` is positive definite, for
every parameter and dictionary, simplexes and subspaces included.  In particular it is invertible,
as linear response needs. -/
theorem C147_posdef_hessian {eigh : Eigh} (he : EighContract eigh) (p : Param) (hb : Built eigh p)
    (hp : p.HasParams) (hv : 0 < p.vecSize) (x : List ℝ) (hx : x.length = p.freeSize)
    (grad : List ℝ) (hgl : grad.length = p.vecSize) (hg : ∀ i < p.vecSize, grad.getD i 0 = 0)
    (H : Arr) (hH : IsMat H p.vecSize p.vecSize)
    (hpd : ∀ w : ℕ → ℝ, (∃ i < p.vecSize, w i ≠ 0) →
      0 < ∑ i ∈ Finset.range p.vecSize, ∑ j ∈ Finset.range p.vecSize, w i * H.at2 i j * w j) :
    ∃ p' M, p.convertHessian x grad H = (p', .ok M) ∧ IsMat M p.freeSize p.freeSize ∧
      ∀ u : ℕ → ℝ, (∃ a < p.freeSize, u a ≠ 0) →
        0 < ∑ a ∈ Finset.range p.freeSize, ∑ b ∈ Finset.range p.freeSize,
          u a * M.at2 a b * u b := by
  have hw := hb.wf he
  obtain ⟨p', M, h1, h2, h3⟩ := p.convertHessian_ok hw hp hv x hx grad hgl H hH
  refine ⟨p', M, h1, h2, fun u hu => ?_⟩
  have key : ∑ a ∈ Finset.range p.freeSize, ∑ b ∈ Finset.range p.freeSize, u a * M.at2 a b * u b =
      ∑ i ∈ Finset.range p.vecSize, ∑ j ∈ Finset.range p.vecSize,
        (∑ a ∈ Finset.range p.freeSize, D1 p.ftvP x i a * u a) * H.at2 i j *
        ∑ b ∈ Finset.range p.freeSize, D1 p.ftvP x j b * u b := by
    have e1 : ∀ a ∈ Finset.range p.freeSize, ∀ b ∈ Finset.range p.freeSize, u a * M.at2 a b * u b =
        ∑ i ∈ Finset.range p.vecSize, ∑ j ∈ Finset.range p.vecSize,
          u a * (D1 p.ftvP x i a * H.at2 i j * D1 p.ftvP x j b) * u b := by
      intro a ha b hb
      rw [h3 a (Finset.mem_range.mp ha) b (Finset.mem_range.mp hb),
        Finset.sum_eq_zero (s := Finset.range p.vecSize) (f := fun i => D2 p.ftvP x i a b * grad.getD i 0)
          (fun i hi => by rw [hg i (Finset.mem_range.mp hi), mul_zero]), zero_add, Finset.mul_sum,
        Finset.sum_mul]
      exact Finset.sum_congr rfl fun i _ => by rw [Finset.mul_sum, Finset.sum_mul]
    rw [Finset.sum_congr rfl fun a ha => Finset.sum_congr rfl (e1 a ha)]
    have e2 : ∀ i j, (∑ a ∈ Finset.range p.freeSize, D1 p.ftvP x i a * u a) * H.at2 i j *
        ∑ b ∈ Finset.range p.freeSize, D1 p.ftvP x j b * u b =
        ∑ a ∈ Finset.range p.freeSize, ∑ b ∈ Finset.range p.freeSize,
          u a * (D1 p.ftvP x i a * H.at2 i j * D1 p.ftvP x j b) * u b := by
      intro i j
      rw [Finset.sum_mul, Finset.sum_mul_sum]
      exact Finset.sum_congr rfl fun a _ => Finset.sum_congr rfl fun b _ => by ring
    simp only [e2]
    rw [Finset.sum_congr rfl fun a _ => Finset.sum_comm, Finset.sum_comm]
    refine Finset.sum_congr rfl fun i _ => ?_
    rw [Finset.sum_congr rfl fun a _ => Finset.sum_comm, Finset.sum_comm]
  rw [key]
  apply hpd
  by_contra hc
  push Not at hc
  obtain ⟨a, ha, hne⟩ := hu
  exact hne (p.rank_ftvP hw hx u hc a ha)

/-- The hypotheses of C147 are met by the example dictionary at `[1, 2, 3]`, with the squared distance
to `free_to_vector([1, 2, 3])` as the objective (stationary there, with Hessian `2 I`). -/
example : ∃ (eigh : Eigh) (p : Param) (x v : List ℝ) (f : (Fin p.vecSize → ℝ) → ℝ) (H : Arr),
    EighContract eigh ∧ Built eigh p ∧ p.HasParams ∧ 0 < p.vecSize ∧ p.freeSize = p.vecSize ∧
    x.length = p.freeSize ∧ p.freeToVectorVal x = .ok v ∧ (∀ u, ContDiffAt ℝ 2 f u) ∧
    fderiv ℝ f (toVec p.vecSize v) = 0 ∧ IsMat H p.vecSize p.vecSize ∧
    ∀ w : ℕ → ℝ, (∃ i < p.vecSize, w i ≠ 0) →
      0 < ∑ i ∈ Finset.range p.vecSize, ∑ j ∈ Finset.range p.vecSize, w i * H.at2 i j * w j := by
  obtain ⟨eigh, he⟩ := exists_eigh
  have hx : ([1, 2, 3] : List ℝ).length = exDict.freeSize := by rw [exDict_freeSize]; rfl
  refine ⟨eigh, exDict, [1, 2, 3], _, fun u => ∑ i, (u i - toVec exDict.vecSize (exDict.ftvP [1, 2, 3]) i) ^ 2,
    Arr.ofFn2 exDict.vecSize exDict.vecSize fun i j => if i = j then 2 else 0, he, exDict_built eigh,
    exDict_hasParams, by rw [exDict_vecSize]; norm_num, by rw [exDict_vecSize, exDict_freeSize], hx,
    (exDict.freeToVectorVal_ok ((exDict_built eigh).wf he) exDict_hasParams _ hx).1, fun u => ?_, ?_,
    ⟨Arr.ofFn2_WF _ _ _, rfl⟩, ?_⟩
  · apply ContDiff.contDiffAt
    fun_prop
  · apply IsLocalMin.fderiv_eq_zero
    apply Filter.Eventually.of_forall
    intro u
    simp only [sub_self, ne_eq, OfNat.ofNat_ne_zero, not_false_eq_true, zero_pow,
      Finset.sum_const_zero]
    exact Finset.sum_nonneg fun i _ => sq_nonneg _
  · rintro w ⟨i, hi, hne⟩
    have e : ∀ a ∈ Finset.range exDict.vecSize, ∑ j ∈ Finset.range exDict.vecSize,
        w a * (Arr.ofFn2 exDict.vecSize exDict.vecSize fun i j => if i = j then (2 : ℝ) else 0).at2 a j * w j =
        2 * w a ^ 2 := by
      intro a ha
      rw [Finset.sum_eq_single a]
      · rw [Arr.at2_ofFn2 _ _ _ (Finset.mem_range.mp ha) (Finset.mem_range.mp ha), if_pos rfl]; ring
      · intro b hb hba
        rw [Arr.at2_ofFn2 _ _ _ (Finset.mem_range.mp ha) (Finset.mem_range.mp hb),
          if_neg (Ne.symm hba)]; ring
      · intro hc; exact absurd ha hc
    rw [Finset.sum_congr rfl e]
    refine Finset.sum_pos' (fun a _ => by positivity) ⟨i, Finset.mem_range.mpr hi, ?_⟩
    have := sq_pos_of_ne_zero hne
    linarith

end LRVB
