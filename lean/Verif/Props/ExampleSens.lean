import Verif.Model.ExampleSens
import Verif.Props.Example
import Verif.Props.Reparam
import Verif.Lemmas.MleHess
import Verif.Lemmas.MleNear
import Verif.Lemmas.Sens

/-!
# C180: the weight sensitivities of the example notebook
-/

namespace LRVB

namespace Example

open Families Flt Matrix

noncomputable section

variable {n N d : ℕ}

/-! ### Coefficients and precision as linear functions of the vector -/

/-- Entry `k` of a vector, 0 outside. -/
def crd (n k : ℕ) : (Fin n → ℝ) →L[ℝ] ℝ := if h : k < n then ContinuousLinearMap.proj ⟨k, h⟩ else 0

theorem crd_apply (k : ℕ) (z : Fin n → ℝ) : crd n k z = (List.ofFn z).getD k 0 := by
  unfold crd
  by_cases h : k < n
  · simp [h, List.getD_eq_getElem?_getD]
  · simp [h, List.getD_eq_getElem?_getD]

/-- The coefficients in a vector. -/
def bfn (d : ℕ) (z : Fin n → ℝ) : Matrix (Fin d) (Fin d) ℝ := Matrix.of fun i j => crd n (i * d + j) z

/-- The precision in a vector. -/
def lfn (d : ℕ) (z : Fin n → ℝ) : Matrix (Fin d) (Fin d) ℝ := Matrix.of fun i j => crd n (d * d + symIndex i j) z

theorem bfn_eq (z : Fin n → ℝ) : bfn d z = asMatrix d (betaArr d (List.ofFn z)) := by
  ext i j
  have hlt : (i : ℕ) * d + j < d * d := Arr.lt_mul_add i.2 j.2
  simp only [bfn, Matrix.of_apply, crd_apply, asMatrix, Arr.at2, betaArr, List.getD_cons_succ, List.getD_cons_zero]
  simp [List.getD_eq_getElem?_getD, List.getElem?_take, hlt]

theorem lfn_eq (z : Fin n → ℝ) : lfn d z = asMatrix d (lamArr d (List.ofFn z)) := by
  ext i j
  simp only [lfn, Matrix.of_apply, crd_apply, asMatrix, lamArr, symMat]
  rw [Arr.at2_ofFn2 _ _ _ i.2 j.2]
  simp [List.getD_eq_getElem?_getD, List.getElem?_drop]

theorem lfn_symm (z : Fin n → ℝ) : (lfn d z)ᵀ = lfn d z := by
  ext i j
  simp only [lfn, Matrix.transpose_apply, Matrix.of_apply]
  rw [symIndex_comm]

/-- Every pair of a matrix and a symmetric one is in a vector. -/
theorem exists_dec (hn : n = d * d + vecSizeOf d) (D E : Matrix (Fin d) (Fin d) ℝ) (hE : Eᵀ = E) :
    ∃ z : Fin n → ℝ, bfn d z = D ∧ lfn d z = E := by
  refine ⟨toVec n (enc d D E), ?_, ?_⟩
  · rw [bfn_eq, ofFn_toVec (by rw [enc_length, hn]), enc_beta]
  · rw [lfn_eq, ofFn_toVec (by rw [enc_length, hn]), enc_lam _ _ hE]

theorem dec_inj (hn : n = d * d + vecSizeOf d) {z : Fin n → ℝ} (hb : bfn d z = 0) (hl : lfn d z = 0) : z = 0 := by
  have h1 := enc_dec (d := d) (v := List.ofFn z) (by simp [hn])
  have h2 := enc_dec (d := d) (v := List.ofFn (0 : Fin n → ℝ)) (by simp [hn])
  rw [← bfn_eq, ← lfn_eq] at h1 h2
  have e1 : bfn d (0 : Fin n → ℝ) = 0 := by ext i j; simp [bfn]
  have e2 : lfn d (0 : Fin n → ℝ) = 0 := by ext i j; simp [lfn]
  rw [hb, hl] at h1
  rw [e1, e2, h1] at h2
  have := congrArg (toVec n) h2
  rwa [toVec_ofFn, toVec_ofFn] at this

theorem bfn_hasDerivM {c : ℝ → Fin n → ℝ} {c' : Fin n → ℝ} (h : HasDerivAt c c' 0) :
    Mle.HasDerivM (fun t => bfn d (c t)) (bfn d c') := fun i j =>
  (crd n (i * d + j)).hasFDerivAt.comp_hasDerivAt (0 : ℝ) h

theorem lfn_hasDerivM {c : ℝ → Fin n → ℝ} {c' : Fin n → ℝ} (h : HasDerivAt c c' 0) :
    Mle.HasDerivM (fun t => lfn d (c t)) (lfn d c') := fun i j =>
  (crd n (d * d + symIndex i j)).hasFDerivAt.comp_hasDerivAt (0 : ℝ) h

theorem bfn_continuous : Continuous (bfn d : (Fin n → ℝ) → _) :=
  continuous_matrix fun i j => (crd n (i * d + j)).continuous

theorem lfn_continuous : Continuous (lfn d : (Fin n → ℝ) → _) :=
  continuous_matrix fun i j => (crd n (d * d + symIndex i j)).continuous

/-! ### The objective as a function of free vector and weights -/

/-- The objective. -/
def obj (X Y : Matrix (Fin N) (Fin d) ℝ) (Γ : (Fin n → ℝ) → Fin n → ℝ) (q : (Fin n → ℝ) × (Fin N → ℝ)) : ℝ :=
  Mle.nll q.2 X Y (bfn d (Γ q.1)) (lfn d (Γ q.1))

section smooth

variable {E : Type} [NormedAddCommGroup E] [NormedSpace ℝ E] {a b c : ℕ}

/-- All entries are twice continuously differentiable. -/
def SmoothM (M : E → Matrix (Fin a) (Fin b) ℝ) : Prop := ∀ i j, ContDiff ℝ 2 fun q => M q i j

theorem SmoothM.mul {M : E → Matrix (Fin a) (Fin b) ℝ} {M' : E → Matrix (Fin b) (Fin c) ℝ} (h : SmoothM M)
    (h' : SmoothM M') : SmoothM fun q => M q * M' q := by
  intro i j
  simp only [Matrix.mul_apply]
  exact ContDiff.sum fun k _ => (h i k).mul (h' k j)

theorem SmoothM.transpose {M : E → Matrix (Fin a) (Fin b) ℝ} (h : SmoothM M) : SmoothM fun q => (M q)ᵀ :=
  fun i j => h j i

theorem SmoothM.const (M : Matrix (Fin a) (Fin b) ℝ) : SmoothM fun _ : E => M := fun _ _ => contDiff_const

theorem SmoothM.sub {M M' : E → Matrix (Fin a) (Fin b) ℝ} (h : SmoothM M) (h' : SmoothM M') :
    SmoothM fun q => M q - M' q := fun i j => (h i j).sub (h' i j)

theorem SmoothM.trace {M : E → Matrix (Fin a) (Fin a) ℝ} (h : SmoothM M) : ContDiff ℝ 2 fun q => (M q).trace :=
  ContDiff.sum fun i _ => h i i

end smooth

theorem obj_contDiff (X Y : Matrix (Fin N) (Fin d) ℝ) {Γ : (Fin n → ℝ) → Fin n → ℝ} (hc : ContDiff ℝ 2 Γ)
    (hp : ∀ u, (lfn d (Γ u)).PosDef) : ContDiff ℝ 2 (obj X Y Γ) := by
  have hΓ : ContDiff ℝ 2 fun q : (Fin n → ℝ) × (Fin N → ℝ) => Γ q.1 := hc.comp contDiff_fst
  have hB : SmoothM fun q : (Fin n → ℝ) × (Fin N → ℝ) => bfn d (Γ q.1) := fun i j =>
    (crd n (i * d + j)).contDiff.comp hΓ
  have hL : SmoothM fun q : (Fin n → ℝ) × (Fin N → ℝ) => lfn d (Γ q.1) := fun i j =>
    (crd n (d * d + symIndex i j)).contDiff.comp hΓ
  have hw : ∀ k : Fin N, ContDiff ℝ 2 fun q : (Fin n → ℝ) × (Fin N → ℝ) => q.2 k := fun k =>
    (contDiff_apply ℝ ℝ k).comp contDiff_snd
  have hW : SmoothM fun q : (Fin n → ℝ) × (Fin N → ℝ) => diagonal q.2 := by
    intro i j
    by_cases h : i = j
    · subst h
      simpa using hw i
    · simpa [Matrix.diagonal_apply_ne _ h] using contDiff_const
  have hR : SmoothM fun q : (Fin n → ℝ) × (Fin N → ℝ) => Mle.resid X Y (bfn d (Γ q.1)) :=
    (SmoothM.const Y).sub ((SmoothM.const X).mul hB)
  have h1 := (hL.mul ((hR.transpose.mul hW).mul hR)).trace
  have hdet : ContDiff ℝ 2 fun q : (Fin n → ℝ) × (Fin N → ℝ) => (lfn d (Γ q.1)).det := by
    have := Mle.det_contDiff.comp (contDiff_pi.2 fun i => contDiff_pi.2 fun j => hL i j)
    exact this
  have h2 := hdet.log fun q => (hp q.1).det_pos.ne'
  exact (contDiff_const.mul h1).sub ((contDiff_const.mul (ContDiff.sum fun k _ => hw k)).mul h2)

section derivs

variable (X Y : Matrix (Fin N) (Fin d) ℝ) {Γ : (Fin n → ℝ) → Fin n → ℝ} (hc : ContDiff ℝ 2 Γ)
  (hp : ∀ u, (lfn d (Γ u)).PosDef)

include hc hp

theorem line_hasDerivAt (p u : Fin n → ℝ) : HasDerivAt (fun t : ℝ => Γ (p + t • u)) (fderiv ℝ Γ p u) 0 := by
  have h1 : HasDerivAt (fun t : ℝ => p + t • u) u 0 := by
    simpa using ((hasDerivAt_id (0 : ℝ)).smul_const u).const_add p
  have h2 : HasFDerivAt Γ (fderiv ℝ Γ p) (p + (0 : ℝ) • u) := by
    rw [zero_smul, add_zero]
    exact (hc.differentiable (by norm_num) p).hasFDerivAt
  exact h2.comp_hasDerivAt (0 : ℝ) h1

/-- The gradient in the free vector. -/
theorem obj_fderiv (p u : Fin n → ℝ) (w : Fin N → ℝ) :
    fderiv ℝ (obj X Y Γ) (p, w) (u, 0) =
      Mle.dnll w X Y (bfn d (Γ p)) (lfn d (Γ p)) (bfn d (fderiv ℝ Γ p u)) (lfn d (fderiv ℝ Γ p u)) := by
  have hF := obj_contDiff X Y hc hp
  have hl := line_hasDerivAt hc hp p u
  have h1 := (bfn_hasDerivM (d := d) hl).nll w X Y (lfn_hasDerivM (d := d) hl) (hp _)
  simp only [zero_smul, add_zero] at h1
  have h2 : HasDerivAt (fun t : ℝ => ((p + t • u, w) : (Fin n → ℝ) × (Fin N → ℝ))) (u, 0) 0 := by
    refine HasDerivAt.prodMk ?_ (hasDerivAt_const _ _)
    simpa using ((hasDerivAt_id (0 : ℝ)).smul_const u).const_add p
  have h3 : HasFDerivAt (obj X Y Γ) (fderiv ℝ (obj X Y Γ) (p, w)) (p + (0 : ℝ) • u, w) := by
    rw [zero_smul, add_zero]
    exact (hF.differentiable (by norm_num) _).hasFDerivAt
  have h4 := h3.comp_hasDerivAt (0 : ℝ) h2
  exact h4.unique h1

/-- The Hessian at a fit. -/
theorem obj_fderiv2 (p u v : Fin n → ℝ) (w : Fin N → ℝ) (h1 : Mle.score w X Y (bfn d (Γ p)) = 0)
    (h2 : Mle.scatter w X Y (bfn d (Γ p)) = (∑ k, w k) • (lfn d (Γ p))⁻¹) :
    fderiv ℝ (fderiv ℝ (obj X Y Γ)) (p, w) (v, 0) (u, 0) =
      Mle.hnll w X (lfn d (Γ p)) (bfn d (fderiv ℝ Γ p u)) (lfn d (fderiv ℝ Γ p u))
        (bfn d (fderiv ℝ Γ p v)) (lfn d (fderiv ℝ Γ p v)) := by
  have hF := obj_contDiff X Y hc hp
  have hl := line_hasDerivAt hc hp p v
  have hline : HasDerivAt (fun t : ℝ => ((p + t • v, w) : (Fin n → ℝ) × (Fin N → ℝ))) (v, 0) 0 := by
    refine HasDerivAt.prodMk ?_ (hasDerivAt_const _ _)
    simpa using ((hasDerivAt_id (0 : ℝ)).smul_const v).const_add p
  have h3 : HasFDerivAt (fun q => fderiv ℝ (obj X Y Γ) q (u, 0))
      ((fderiv ℝ (fderiv ℝ (obj X Y Γ)) (p, w)).flip (u, 0)) (p + (0 : ℝ) • v, w) := by
    rw [zero_smul, add_zero]
    exact fderiv2_hasFDerivAt hF (p, w) (u, 0)
  have h4 := h3.comp_hasDerivAt (0 : ℝ) hline
  have hcl : Continuous fun t : ℝ => p + t • v := by fun_prop
  have hcd : Continuous fun t : ℝ => fderiv ℝ Γ (p + t • v) u :=
    ((hc.continuous_fderiv (by norm_num)).comp hcl).clm_apply continuous_const
  have h5 := Mle.hasDerivAt_dnll w X Y (B := fun t => bfn d (Γ (p + t • v))) (L := fun t => lfn d (Γ (p + t • v)))
    (D := fun t => bfn d (fderiv ℝ Γ (p + t • v) u)) (E := fun t => lfn d (fderiv ℝ Γ (p + t • v) u))
    (bfn_hasDerivM hl) (lfn_hasDerivM hl) (fun t => hp _) (bfn_continuous.comp hcd).continuousAt
    (lfn_continuous.comp hcd).continuousAt (lfn_continuous.comp (hc.continuous.comp hcl)).continuousAt
    (by simpa using h1) (by simpa using h2)
  have h6 : (fun q => fderiv ℝ (obj X Y Γ) q (u, 0)) ∘ (fun t : ℝ => ((p + t • v, w) : (Fin n → ℝ) × (Fin N → ℝ))) =
      fun t => Mle.dnll w X Y (bfn d (Γ (p + t • v))) (lfn d (Γ (p + t • v)))
        (bfn d (fderiv ℝ Γ (p + t • v) u)) (lfn d (fderiv ℝ Γ (p + t • v) u)) := by
    funext t
    exact obj_fderiv X Y hc hp _ _ _
  rw [h6] at h4
  have h7 := h4.unique h5
  simpa using h7

/-- The cross derivatives. -/
theorem obj_cross (p u : Fin n → ℝ) (w e : Fin N → ℝ) :
    fderiv ℝ (fderiv ℝ (obj X Y Γ)) (p, w) (0, e) (u, 0) =
      Mle.dnll e X Y (bfn d (Γ p)) (lfn d (Γ p)) (bfn d (fderiv ℝ Γ p u)) (lfn d (fderiv ℝ Γ p u)) := by
  have hF := obj_contDiff X Y hc hp
  have hline : HasDerivAt (fun t : ℝ => ((p, w + t • e) : (Fin n → ℝ) × (Fin N → ℝ))) (0, e) 0 := by
    refine HasDerivAt.prodMk (hasDerivAt_const _ _) ?_
    simpa using ((hasDerivAt_id (0 : ℝ)).smul_const e).const_add w
  have h3 : HasFDerivAt (fun q => fderiv ℝ (obj X Y Γ) q (u, 0))
      ((fderiv ℝ (fderiv ℝ (obj X Y Γ)) (p, w)).flip (u, 0)) (p, w + (0 : ℝ) • e) := by
    rw [zero_smul, add_zero]
    exact fderiv2_hasFDerivAt hF (p, w) (u, 0)
  have h4 := h3.comp_hasDerivAt (0 : ℝ) hline
  have h6 : (fun q => fderiv ℝ (obj X Y Γ) q (u, 0)) ∘ (fun t : ℝ => ((p, w + t • e) : (Fin n → ℝ) × (Fin N → ℝ))) =
      fun t => Mle.dnll w X Y (bfn d (Γ p)) (lfn d (Γ p)) (bfn d (fderiv ℝ Γ p u)) (lfn d (fderiv ℝ Γ p u)) +
        t * Mle.dnll e X Y (bfn d (Γ p)) (lfn d (Γ p)) (bfn d (fderiv ℝ Γ p u)) (lfn d (fderiv ℝ Γ p u)) := by
    funext t
    rw [← Mle.dnll_affine]
    exact obj_fderiv X Y hc hp _ _ _
  rw [h6] at h4
  have h5 := ((hasDerivAt_id (0 : ℝ)).mul_const (Mle.dnll e X Y (bfn d (Γ p)) (lfn d (Γ p)) (bfn d (fderiv ℝ Γ p u))
    (lfn d (fderiv ℝ Γ p u)))).const_add (Mle.dnll w X Y (bfn d (Γ p)) (lfn d (Γ p)) (bfn d (fderiv ℝ Γ p u))
    (lfn d (fderiv ℝ Γ p u)))
  have h7 := h4.unique h5
  simpa using h7

end derivs

/-! ### What the notebook computes -/

theorem at2_tr {a : Arr} {r c : ℕ} (ha : a.shape = [r, c]) {i j : ℕ} (hi : i < c) (hj : j < r) :
    a.transpose.at2 i j = a.at2 j i := by
  unfold Arr.transpose
  rw [ha]
  exact Arr.at2_ofFn2 _ _ _ (by simpa using hi) (by simpa using hj)

theorem wV_vec {om : List ℝ} : wV N (Arr.vec om) = toVec N om := by
  funext k
  simp [wV, Arr.get, Arr.flat, Arr.vec, toVec]

/-- The entry `beta` after `set_free`. -/
theorem Ready.summary {p : Param} (h : Ready p d) {z v : List ℝ} (hz : z.length = p.freeSize)
    (hv : p.freeToVectorVal z = .ok v) : (evalSummary p z).2 = .ok (Arr.vec (v.take (d * d))) := by
  obtain ⟨eigh, he, hb⟩ := h.built
  have hw := hb.wf he
  have hval := p.freeToVectorVal_ok hw h.hasParams z hz
  have e : v = p.ftvP z := by
    have := hv.symm.trans hval.1
    simpa using this
  have hl : v.length = p.vecSize := by rw [e]; exact hval.2
  unfold evalSummary
  rw [p.setFree_ok hw z hz, ← p.vecP_ftvP hw z hz, ← e]
  simp only
  rw [h.vecSize] at hl
  obtain ⟨hd, l1, l2, rfl, h1, h2, -, -⟩ := h.pair
  have f1 : l1.vecSize = d * d := by rw [Leaf.vecSize, h1]; simp [Kind.vecSize]
  simp only [Param.vecP, Entries.vecE, Param.vecSize, f1, h1, vectorVal, Entries.find, if_true, Param.getVector,
    Leaf.getVector]
  rfl

section compute

variable {y x w : Arr}

theorem objectiveWeights_ok (hD : Data N d y x w) {p : Param} (h : Ready p d) (hf : p.freeSize = n)
    {Γ : (Fin n → ℝ) → Fin n → ℝ}
    (hΓ : ∀ z : List ℝ, z.length = n → p.freeToVectorVal z = .ok (List.ofFn (Γ (toVec n z)))) {z om : List ℝ}
    (hz : z.length = n) (ho : om.length = N) :
    objectiveWeights p y x z om =
      .ok (Arr.scalar (obj (toMatrix N d x) (toMatrix N d y) Γ (toVec n z, toVec N om))) := by
  have hD' : Data N d y x (Arr.vec om) := ⟨hD.y, hD.x, by simp [Arr.WF, Arr.vec], by simp [Arr.vec, ho]⟩
  obtain ⟨v, q, h1, -, -, -, -, h6⟩ := objective_ok hD' h (hz.trans hf.symm)
  rw [hΓ z hz] at h1
  cases h1
  unfold objectiveWeights obj
  rw [h6, wV_vec, bfn_eq, lfn_eq]
  rfl

/-- The weights have a positive sum. -/
theorem sum_pos (hd : 0 < d) (hw : ∀ k < N, 0 ≤ w.get [k]) (hg : (Mle.gram (wV N w) (toMatrix N d x)).PosDef) :
    0 < ∑ k, wV N w k := by
  have hW0 : ∀ k, 0 ≤ wV N w k := fun k => hw k k.2
  refine lt_of_le_of_ne (Finset.sum_nonneg fun k _ => hW0 k) fun h0 => ?_
  have hz0 : wV N w = 0 := by
    funext k
    exact (Finset.sum_eq_zero_iff_of_nonneg (fun k _ => hW0 k)).1 h0.symm k (Finset.mem_univ k)
  rw [hz0] at hg
  have : Mle.gram (0 : Fin N → ℝ) (toMatrix N d x) = 0 := by
    unfold Mle.gram
    simp
  rw [this] at hg
  have hdet := hg.det_pos
  haveI : Nonempty (Fin d) := ⟨⟨0, hd⟩⟩
  simp at hdet

/-- What `weight_sens` holds at a fit. -/
theorem weightSens_ok (hd : 0 < d) (hD : Data N d y x w) (hw : ∀ k < N, 0 ≤ w.get [k]) {p : Param} (h : Ready p d)
    {z v : List ℝ} (hz : z.length = p.freeSize) (hv : p.freeToVectorVal z = .ok v)
    (he : LikelihoodEquations N d y x w (betaArr d v) (lamArr d v)) (hg : (gramMatrix N d x w).PosDef) :
    ∃ s, weightSens p y x w.data z = .ok s ∧ IsMat s N (d * d) ∧ ∀ (k : Fin N) (i j : Fin d),
      s.at2 k ((i : ℕ) * d + j) = influence N d y x w (betaArr d v) k i j := by
  set X := toMatrix N d x with hX
  set Y := toMatrix N d y with hY
  obtain ⟨n, hn⟩ : ∃ n, n = d * d + vecSizeOf d := ⟨_, rfl⟩
  have hvs : p.vecSize = n := by rw [h.vecSize, hn]
  have hfs : p.freeSize = n := by rw [h.sizes, hvs]
  have hn0 : 0 < n := by
    rw [hn]
    exact Nat.add_pos_left (Nat.mul_pos hd hd) _
  have hzn : z.length = n := hz.trans hfs
  obtain ⟨eigh, hei, hb⟩ := h.built
  obtain ⟨Γ, hc, hinj, hΓ⟩ := exists_chart (hb.wf hei) h.hasParams hfs hvs
  have hv0 : List.ofFn (Γ (toVec n z)) = v := by
    have := (hΓ z hzn).symm.trans hv
    simpa using this
  set u₀ := toVec n z with hu0
  have hp : ∀ u, (lfn d (Γ u)).PosDef := by
    intro u
    obtain ⟨v', q, h1, h2, h3, -, -, -⟩ := h.setFree (z := List.ofFn u) (by simp [hfs])
    rw [hΓ _ (by simp), toVec_ofFn] at h1
    cases h1
    rw [lfn_eq]
    exact ((h.legal _ h2).1 h3).2
  have hwl : w.data.length = N := by
    have := hD.w.1
    rw [Arr.WF, hD.w.2] at this
    simpa using this
  have hwv : Arr.vec w.data = w := by
    have := hD.w.2
    cases w
    simp only at this hwl
    simp [Arr.vec, this, hwl]
  set W : Fin N → ℝ := toVec N w.data with hWd
  have hWw : wV N w = W := by rw [← hwv, wV_vec]
  rw [equations_iff, hWw, ← hv0, ← bfn_eq, ← lfn_eq] at he
  obtain ⟨he1, he2⟩ := he
  rw [← gram_eq, hWw] at hg
  have hW0 : ∀ k, 0 ≤ W k := fun k => by
    rw [← hWw]
    exact hw k k.2
  have hWpos : 0 < ∑ k, W k := by
    rw [← hWw]
    rw [← hWw] at hg
    exact sum_pos hd hw hg
  have hF := obj_contDiff X Y hc hp
  have hpd : PositiveCurvature (obj X Y Γ) u₀ W := by
    intro u hu
    rw [curvature_eq hF, obj_fderiv2 X Y hc hp _ _ _ _ he1 he2]
    refine Mle.hnll_pos _ _ (hp u₀) hWpos hg (lfn_symm _) ?_
    by_contra hcon
    simp only [not_or, not_not] at hcon
    have h0 := dec_inj hn hcon.1 hcon.2
    exact hu (hinj u₀ (by rw [h0, map_zero]))
  have hHpd := hessArr_posDef hF hpd
  -- the pieces
  have hJ : agJac (fun u => (evalSummary p u).2) z =
      .ok (Arr.ofFn2 (d * d) n fun k j => crd n k (fderiv ℝ Γ u₀ (basis n j))) := by
    have hdiff : ∀ k, HasFDerivAt (fun u => crd n k (Γ u)) ((crd n k).comp (fderiv ℝ Γ u₀)) u₀ := fun k =>
      (crd n k).hasFDerivAt.comp u₀ (hc.differentiable (by norm_num) u₀).hasFDerivAt
    rw [agJac_ok (m := n) (r := d * d) (g := fun k u => crd n k (Γ u))
      (fun k _ => (crd n k).differentiable.comp (hc.differentiable (by norm_num))) (fun y' hy' => ?_) hzn
      (Nat.mul_pos hd hd)]
    · simp only [← hu0, (hdiff _).fderiv]
      rfl
    · rw [h.summary (hy'.trans hfs.symm) (hΓ y' hy')]
      congr 2
      apply List.ext_getElem
      · simp
        omega
      · intro k hk hk'
        simp only [List.length_map, List.length_range] at hk'
        simp [crd_apply, List.getD_eq_getElem?_getD, show k < n by omega]
  have hH : agHess (fun u => objectiveWeights p y x u w.data) z = .ok (hessArr (obj X Y Γ) u₀ W) := by
    rw [agHess_ok (contDiff_left hF W) (fun y' hy' => objectiveWeights_ok hD h hfs hΓ hy' hwl) hzn hn0]
    unfold hessArr
    simp only [fderiv2_left hF]
    rfl
  have hC : TwoObjective.agHessian12 (fun u om => objectiveWeights p y x u om) z w.data =
      .ok (crossArr (obj X Y Γ) u₀ W) :=
    agHessian12_ok hF (fun y1 y2 h1 h2 => objectiveWeights_ok hD h hfs hΓ h1 h2) hzn hwl hn0
  set J := Arr.ofFn2 (d * d) n fun k j => crd n k (fderiv ℝ Γ u₀ (basis n j)) with hJd
  set H := hessArr (obj X Y Γ) u₀ W with hHd
  set C := crossArr (obj X Y Γ) u₀ W with hCd
  set S := (Arr.ofFn2 n (d * d) fun i j => if h : i < n ∧ j < d * d then
    ((toMatrix n n H)⁻¹ * toMatrix n (d * d) J.transpose) ⟨i, h.1⟩ ⟨j, h.2⟩ else 0).neg with hSd
  have hsol : npSolveMat H J.transpose = .ok (Arr.ofFn2 n (d * d) fun i j => if h : i < n ∧ j < d * d then
    ((toMatrix n n H)⁻¹ * toMatrix n (d * d) J.transpose) ⟨i, h.1⟩ ⟨j, h.2⟩ else 0) := by
    have s1 : H.shape = [n, n] := rfl
    have s2 : J.transpose.shape = [n, d * d] := rfl
    unfold npSolveMat
    rw [s1, s2]
    simp only [ne_eq, not_true_eq_false, if_false]
    rw [if_neg hHpd.det_pos.ne']
  refine ⟨Arr.ofFn2 N (d * d) fun i k => ∑ j ∈ Finset.range n, C.transpose.at2 i j * S.at2 j k, ?_,
    ⟨Arr.ofFn2_WF _ _ _, rfl⟩, fun k i j => ?_⟩
  · unfold weightSens
    rw [hJ, py_ok_bind, hH, py_ok_bind, hsol, py_ok_bind, hC, py_ok_bind]
    exact matmul_ok rfl rfl
  · have hlt : (i : ℕ) * d + j < d * d := Arr.lt_mul_add i.2 j.2
    obtain ⟨c, hcz, hcl⟩ := exists_dec hn ((Mle.gram W X)⁻¹ * Mle.score (Pi.single k 1) X Y (bfn d (Γ u₀)))
      ((∑ m, W m)⁻¹ • ((∑ m, (Pi.single k 1 : Fin N → ℝ) m) • lfn d (Γ u₀) -
        lfn d (Γ u₀) * Mle.scatter (Pi.single k 1) X Y (bfn d (Γ u₀)) * lfn d (Γ u₀))) (by
      rw [Matrix.transpose_smul, Matrix.transpose_sub, Matrix.transpose_smul, Matrix.transpose_mul,
        Matrix.transpose_mul, lfn_symm, Mle.scatter_symm, Matrix.mul_assoc])
    obtain ⟨e, hec⟩ : ∃ e, fderiv ℝ Γ u₀ e = c :=
      (LinearMap.injective_iff_surjective (f := (fderiv ℝ Γ u₀ : (Fin n → ℝ) →ₗ[ℝ] (Fin n → ℝ)))).1 (hinj u₀) c
    have hHe : toMatrix n n H *ᵥ e = fun a => -toMatrix n N C a k := by
      funext a
      rw [hHd, hessArr_mulVec hF, gradF_fderiv hF, obj_fderiv2 X Y hc hp _ _ _ _ he1 he2, hec, hcz, hcl,
        Mle.response W X Y (Pi.single k 1) (hp u₀) hWpos hg, toMatrix, Matrix.of_apply, hCd, crossArr,
        Arr.at2_ofFn2 _ _ _ a.2 k.2, basis_eq_single k, obj_cross X Y hc hp]
    have hHs : (toMatrix n n H)ᵀ = toMatrix n n H := Mle.symm_of_posDef hHpd
    have hHu : IsUnit (toMatrix n n H).det := isUnit_iff_ne_zero.2 hHpd.det_pos.ne'
    rw [Arr.at2_ofFn2 _ _ _ k.2 hlt, Finset.sum_range]
    have h1 : ∀ a : Fin n, C.transpose.at2 k a * S.at2 a ((i : ℕ) * d + j) =
        (toMatrix n n H *ᵥ e) a * ((toMatrix n n H)⁻¹ * toMatrix n (d * d) J.transpose) a ⟨(i : ℕ) * d + j, hlt⟩ := by
      intro a
      rw [hHe, hSd, Arr.at2_neg, Arr.at2_ofFn2 _ _ _ a.2 hlt, dif_pos ⟨a.2, hlt⟩,
        at2_tr (r := n) (c := N) rfl k.2 a.2]
      simp only [toMatrix, Matrix.of_apply]
      ring
    rw [Finset.sum_congr rfl fun a _ => h1 a]
    have h2 : ∑ a, (toMatrix n n H *ᵥ e) a *
        ((toMatrix n n H)⁻¹ * toMatrix n (d * d) J.transpose) a ⟨(i : ℕ) * d + j, hlt⟩ =
        (e ᵥ* toMatrix n (d * d) J.transpose) ⟨(i : ℕ) * d + j, hlt⟩ := by
      have : toMatrix n n H *ᵥ e = e ᵥ* toMatrix n n H := by
        rw [← Matrix.vecMul_transpose, hHs]
      rw [this]
      have h3 : (e ᵥ* toMatrix n n H) ᵥ* ((toMatrix n n H)⁻¹ * toMatrix n (d * d) J.transpose) =
          e ᵥ* toMatrix n (d * d) J.transpose := by
        rw [Matrix.vecMul_vecMul, mul_nonsing_inv_cancel_left _ _ hHu]
      rw [← h3]
      rfl
    rw [h2]
    have h4 : (e ᵥ* toMatrix n (d * d) J.transpose) ⟨(i : ℕ) * d + j, hlt⟩ = bfn d (fderiv ℝ Γ u₀ e) i j := by
      have h5 : (e ᵥ* toMatrix n (d * d) J.transpose) ⟨(i : ℕ) * d + j, hlt⟩ =
          ∑ a : Fin n, e a * crd n ((i : ℕ) * d + j) (fderiv ℝ Γ u₀ (basis n a)) := by
        rw [Matrix.vecMul, dotProduct]
        refine Finset.sum_congr rfl fun a _ => ?_
        rw [toMatrix, Matrix.of_apply, at2_tr (r := d * d) (c := n) rfl a.2 hlt, hJd,
          Arr.at2_ofFn2 _ _ _ hlt a.2]
      rw [h5, bfn, Matrix.of_apply]
      conv_rhs => rw [basis_expand e]
      simp only [map_sum, map_smul, smul_eq_mul]
    rw [h4, hec, hcz, Matrix.mul_apply]
    unfold influence
    refine Finset.sum_congr rfl fun a _ => ?_
    rw [Mle.score_single, ← gram_eq, hWw, bfn_eq, hv0, resid_apply]
    simp only [hX, toMatrix, Matrix.of_apply]
    ring

end compute

theorem data_length {w : Arr} (hw : IsArr w [N]) : w.data.length = N := by
  have := hw.1
  rw [Arr.WF, hw.2] at this
  simpa using this

theorem Data.reweight {y x w : Arr} (hD : Data N d y x w) (k : ℕ) (t : ℝ) : Data N d y x (reweight w k t) :=
  ⟨hD.y, hD.x, by simpa [Arr.WF, Example.reweight] using hD.w.1, hD.w.2⟩

theorem wV_reweight {w : Arr} (hw : IsArr w [N]) (k : Fin N) (t : ℝ) :
    wV N (reweight w k t) = wV N w + t • Pi.single k 1 := by
  have hl := data_length hw
  funext m
  have hm : (m : ℕ) < w.data.length := hl ▸ m.2
  have hk : (k : ℕ) < w.data.length := hl ▸ k.2
  simp only [wV, Arr.get, Arr.flat, reweight, hw.2, Pi.add_apply, Pi.smul_apply, smul_eq_mul, Pi.single_apply]
  by_cases h : m = k
  · subst h
    simp [List.getD_eq_getElem?_getD, hm]
  · have h' : (k : ℕ) ≠ m := fun h'' => h (Fin.ext h''.symm)
    simp [List.getD_eq_getElem?_getD, List.getElem?_set, h, h']

end

end Example

noncomputable section

open Example

/-! ### C180 -/

/-- **C180** (summary) `eval_summary` returns the coefficients, row by row, that `eval_objective` uses at the
same free vector. -/
theorem C180_summary (d N : ℕ) (y x w : Arr) (hD : Data N d y x w) (ops ops' : List ParamOp) (p₀ : Param)
    (hp : params d = .ok p₀) (z : List ℝ) (hz : z.length = (p₀.run ops).freeSize) (b : Arr)
    (hb : Holds (evalObjective (p₀.run ops) y x w z).1 "beta" b) :
    (evalSummary (p₀.run ops') z).2 = .ok (Arr.vec b.data) := by
  obtain ⟨p, hp', hr⟩ := params_ready d
  rw [hp] at hp'
  cases hp'
  obtain ⟨v, q, h1, h2, h3, h4, h5, h6⟩ := objective_ok hD (hr ops) hz
  rw [h6] at hb
  have eb : b = betaArr d v := by simpa [Holds] using hb.symm.trans h4
  subst eb
  have hs : (p₀.run ops').freeSize = (p₀.run ops).freeSize := by
    rw [(hr ops').sizes, (hr ops).sizes, (hr ops').vecSize, (hr ops).vecSize]
  obtain ⟨v', q', g1, g2, g3, g4, g5, g6⟩ := objective_ok hD (hr ops') (hz.trans hs.symm)
  have : v' = v := by
    obtain ⟨eigh, he, hbt⟩ := (hr ops).built
    obtain ⟨eigh', he', hbt'⟩ := (hr ops').built
    have e1 := (Param.freeToVectorVal_ok _ (hbt.wf he) (hr ops).hasParams z hz).1
    have e2 := (Param.freeToVectorVal_ok _ (hbt'.wf he') (hr ops').hasParams z (hz.trans hs.symm)).1
    rw [h1] at e1
    rw [g1, Param.ftvP_congr (q := p₀.run ops) (by rw [Param.run_erase, Param.run_erase]), ← e1] at e2
    simpa using e2
  rw [(hr ops').summary (hz.trans hs.symm) g1, this]
  rfl

/-- **C180** (influence) At a fit with weights that are not negative and a positive definite Gram matrix, the
computation of `weight_sens` succeeds (the Hessian is invertible), whatever was called before.  Row `k` holds
the influence of observation `k` on the coefficients, as weighted least squares has it: the precision and its
parameterization do not matter. -/
theorem C180_influence (d N : ℕ) (hd : 0 < d) (y x w : Arr) (hD : Data N d y x w) (hw : ∀ n < N, 0 ≤ w.get [n])
    (hg : (gramMatrix N d x w).PosDef) (ops : List ParamOp) (p₀ : Param) (hp : params d = .ok p₀) (z : List ℝ)
    (hz : z.length = (p₀.run ops).freeSize) (hm : ObjectiveLocalMin (p₀.run ops) y x w z) (b : Arr)
    (hb : Holds (evalObjective (p₀.run ops) y x w z).1 "beta" b) :
    ∃ s, weightSens (p₀.run ops) y x w.data z = .ok s ∧ IsMat s N (d * d) ∧ ∀ (k : Fin N) (i j : Fin d),
      s.at2 k ((i : ℕ) * d + j) = influence N d y x w b k i j := by
  obtain ⟨p, hp', hr⟩ := params_ready d
  rw [hp] at hp'
  cases hp'
  obtain ⟨v, q, h1, h2, h3, h4, h5, h6⟩ := objective_ok hD (hr ops) hz
  rw [h6] at hb
  have eb : b = betaArr d v := by simpa [Holds] using hb.symm.trans h4
  subst eb
  exact weightSens_ok hd hD hw (hr ops) hz h1 (stationary_of_min hD (hr ops) hz h1 hm) hg

/-- **C180** (refit) The prediction is not only the first order: when the weight of observation `k` changes by
`t` and the model is fitted again, from any state of the parameter, the change of every coefficient times
`1 + t h` is `t` times the prediction, where `h` is the leverage of the observation. -/
theorem C180_refit (d N : ℕ) (hd : 0 < d) (y x w : Arr) (hD : Data N d y x w) (hw : ∀ n < N, 0 ≤ w.get [n])
    (hg : (gramMatrix N d x w).PosDef) (ops ops' : List ParamOp) (p₀ : Param) (hp : params d = .ok p₀) (z : List ℝ)
    (hz : z.length = (p₀.run ops).freeSize) (hm : ObjectiveLocalMin (p₀.run ops) y x w z) (b : Arr)
    (hb : Holds (evalObjective (p₀.run ops) y x w z).1 "beta" b) (s : Arr)
    (hs : weightSens (p₀.run ops) y x w.data z = .ok s) (k : Fin N) (t : ℝ) (z' : List ℝ)
    (hz' : z'.length = (p₀.run ops').freeSize) (hm' : ObjectiveLocalMin (p₀.run ops') y x (reweight w k t) z')
    (b' : Arr) (hb' : Holds (evalObjective (p₀.run ops') y x (reweight w k t) z').1 "beta" b') (i j : Fin d) :
    (1 + t * leverage N d x w k) * (b'.at2 i j - b.at2 i j) = t * s.at2 k ((i : ℕ) * d + j) := by
  obtain ⟨s', hs', -, hinf⟩ := C180_influence d N hd y x w hD hw hg ops p₀ hp z hz hm b hb
  rw [hs] at hs'
  cases hs'
  obtain ⟨p, hp', hr⟩ := params_ready d
  rw [hp] at hp'
  cases hp'
  obtain ⟨v, q, h1, -, -, h4, -, h6⟩ := objective_ok hD (hr ops) hz
  obtain ⟨v', q', g1, -, -, g4, -, g6⟩ := objective_ok (hD.reweight k t) (hr ops') hz'
  have e1 := ((equations_iff _ _).1 (stationary_of_min hD (hr ops) hz h1 hm)).1
  have e2 := ((equations_iff _ _).1 (stationary_of_min (hD.reweight k t) (hr ops') hz' g1 hm')).1
  rw [h6] at hb
  rw [g6] at hb'
  have eb : b = betaArr d v := by simpa [Holds] using hb.symm.trans h4
  have eb' : b' = betaArr d v' := by simpa [Holds] using hb'.symm.trans g4
  subst eb eb'
  rw [wV_reweight hD.w] at e2
  have hg' := hg
  rw [← gram_eq] at hg'
  have := Mle.leave_one_out (wV N w) (toMatrix N d x) (toMatrix N d y) k t hg' e1 e2 i j
  rw [hinf]
  unfold influence leverage
  rw [gram_eq] at this
  exact this

/-- **C180** (dropped) The last cell of the notebook: an observation of weight one is dropped and the model is
fitted again.  The predicted difference is the actual difference times one minus the leverage. -/
theorem C180_dropped (d N : ℕ) (hd : 0 < d) (y x w : Arr) (hD : Data N d y x w) (hw : ∀ n < N, 0 ≤ w.get [n])
    (hg : (gramMatrix N d x w).PosDef) (ops ops' : List ParamOp) (p₀ : Param) (hp : params d = .ok p₀) (z : List ℝ)
    (hz : z.length = (p₀.run ops).freeSize) (hm : ObjectiveLocalMin (p₀.run ops) y x w z) (b : Arr)
    (hb : Holds (evalObjective (p₀.run ops) y x w z).1 "beta" b) (s : Arr)
    (hs : weightSens (p₀.run ops) y x w.data z = .ok s) (k : Fin N) (hk : w.get [(k : ℕ)] = 1) (w' : Arr)
    (hw' : w' = ⟨w.shape, w.data.set k 0⟩) (z' : List ℝ)
    (hz' : z'.length = (p₀.run ops').freeSize) (hm' : ObjectiveLocalMin (p₀.run ops') y x w' z')
    (b' : Arr) (hb' : Holds (evalObjective (p₀.run ops') y x w' z').1 "beta" b') (i j : Fin d) :
    s.at2 k ((i : ℕ) * d + j) = (1 - leverage N d x w k) * (b.at2 i j - b'.at2 i j) := by
  have hwk : w' = reweight w k (-1) := by
    have : w.data.getD k 0 = 1 := by
      rw [← hk]
      simp [Arr.get, Arr.flat, hD.w.2]
    rw [hw', reweight, this]
    norm_num
  rw [hwk] at hm' hb'
  have := C180_refit d N hd y x w hD hw hg ops ops' p₀ hp z hz hm b hb s hs k (-1) z' hz' hm' b' hb' i j
  linarith

/-- **C180** (derivative) Row `k` of `weight_sens` is the derivative of the fitted coefficients in the weight of
observation `k`, for every way to choose fits of the models with weights near the given ones. -/
theorem C180_derivative (d N : ℕ) (hd : 0 < d) (y x w : Arr) (hD : Data N d y x w) (hw : ∀ n < N, 0 ≤ w.get [n])
    (hg : (gramMatrix N d x w).PosDef) (ops : List ParamOp) (p₀ : Param) (hp : params d = .ok p₀) (z : List ℝ)
    (hz : z.length = (p₀.run ops).freeSize) (hm : ObjectiveLocalMin (p₀.run ops) y x w z) (s : Arr)
    (hs : weightSens (p₀.run ops) y x w.data z = .ok s) (k : Fin N) (ops' : ℝ → List ParamOp) (zs : ℝ → List ℝ)
    (bs : ℝ → Arr) (hfit : ∀ᶠ t in nhds (0 : ℝ), (zs t).length = (p₀.run (ops' t)).freeSize ∧
      ObjectiveLocalMin (p₀.run (ops' t)) y x (reweight w k t) (zs t) ∧
      Holds (evalObjective (p₀.run (ops' t)) y x (reweight w k t) (zs t)).1 "beta" (bs t)) (i j : Fin d) :
    HasDerivAt (fun t => (bs t).at2 i j) (s.at2 k ((i : ℕ) * d + j)) 0 := by
  obtain ⟨q, b, l, h1, h2, -⟩ := C179_value d N y x w hD ops p₀ hp z hz
  have hb : Holds (evalObjective (p₀.run ops) y x w z).1 "beta" b := by rw [h1]; exact h2
  set h := leverage N d x w k with hh
  set c := s.at2 k ((i : ℕ) * d + j) with hc
  have hne : ∀ᶠ t in nhds (0 : ℝ), 1 + t * h ≠ 0 := by
    have : ContinuousAt (fun t : ℝ => 1 + t * h) 0 := by fun_prop
    exact this.eventually_ne (by simp)
  have key : (fun t => (bs t).at2 i j) =ᶠ[nhds 0] fun t => b.at2 i j + t * c / (1 + t * h) := by
    filter_upwards [hfit, hne] with t ht hn
    have := C180_refit d N hd y x w hD hw hg ops (ops' t) p₀ hp z hz hm b hb s hs k t (zs t) ht.1 ht.2.1 (bs t) ht.2.2 i j
    rw [← hh, ← hc] at this
    rw [← this]
    field_simp
    ring
  refine HasDerivAt.congr_of_eventuallyEq ?_ key
  have e1 : HasDerivAt (fun t : ℝ => t * c) c 0 := by simpa using (hasDerivAt_id (0 : ℝ)).mul_const c
  have e2 : HasDerivAt (fun t : ℝ => 1 + t * h) h 0 := by
    simpa using ((hasDerivAt_id (0 : ℝ)).mul_const h).const_add 1
  refine ((e1.div e2 (by simp)).const_add (b.at2 i j)).congr_deriv ?_
  simp

/-- **C180** (nearby) Fits near a fit always exist, so that there is something to predict: for weights, again not
negative, that are close enough to the given ones, there is a fit as close as wanted to the given fit. -/
theorem C180_nearby (d N : ℕ) (hd : 0 < d) (y x w : Arr) (hD : Data N d y x w) (hw : ∀ n < N, 0 ≤ w.get [n])
    (hg : (gramMatrix N d x w).PosDef) (ops : List ParamOp) (p₀ : Param) (hp : params d = .ok p₀) (z : List ℝ)
    (hz : z.length = (p₀.run ops).freeSize) (hm : ObjectiveLocalMin (p₀.run ops) y x w z) (ε : ℝ) (hε : 0 < ε) :
    ∃ δ > 0, ∀ w' : Arr, IsArr w' [N] → (∀ n < N, 0 ≤ w'.get [n] ∧ |w'.get [n] - w.get [n]| < δ) →
      ∃ z' : List ℝ, z'.length = (p₀.run ops).freeSize ∧ ObjectiveLocalMin (p₀.run ops) y x w' z' ∧
        Within (p₀.run ops).freeSize ε z' z := by
  obtain ⟨p, hp', hr⟩ := params_ready d
  rw [hp] at hp'
  cases hp'
  have h := hr ops
  obtain ⟨v, q, h1, h2, h3, -, -, -⟩ := objective_ok hD h hz
  have he := (equations_iff _ _).1 (stationary_of_min hD h hz h1 hm)
  obtain ⟨eigh, hei, hb⟩ := h.built
  obtain ⟨ε₁, hε₁, hclose⟩ := (C149_homeomorphism hei _ hb h.hasParams z v hz h1 ε hε).1
  obtain ⟨ε₂, hε₂, hopen⟩ := C149_open hei _ hb h.hasParams h.sizes z v hz h1
  rw [← gram_eq] at hg
  obtain ⟨δ, hδ, hnear⟩ := Mle.exists_near (toMatrix N d x) (toMatrix N d y) (sum_pos hd hw hg) hg
    ((h.legal v h2).1 h3).2 he.1 he.2 (lt_min hε₁ hε₂)
  refine ⟨δ, hδ, fun w' hw' hn => ?_⟩
  obtain ⟨B', L', hB, hL, hs, e1, e2⟩ := hnear (wV N w') fun n => (hn n n.2).2
  have hlen : v.length = d * d + vecSizeOf d := by rw [h2, h.vecSize]
  have hwin : ∀ e, min ε₁ ε₂ ≤ e → Within (p₀.run ops).vecSize e (enc d B' L') v := by
    intro e hle
    have hpos : 0 < e := lt_of_lt_of_le (lt_min hε₁ hε₂) hle
    have := enc_close hpos (fun i j => lt_of_lt_of_le (hB i j) hle) (fun i j => lt_of_lt_of_le (hL i j) hle)
      (p₀.run ops).vecSize
    rwa [enc_dec hlen] at this
  obtain ⟨z', hz', hv'⟩ := hopen (enc d B' L') (by rw [enc_length, h.vecSize]) (hwin _ (min_le_right _ _))
  refine ⟨z', hz', ?_, hclose z' _ hz' hv' (hwin _ (min_le_left _ _))⟩
  have hD' : Data N d y x w' := ⟨hD.y, hD.x, hw'⟩
  obtain ⟨v1, q1, g1, g2, g3, g4, g5, g6⟩ := objective_ok hD' h hz'
  rw [hv'] at g1
  cases g1
  refine (C179_fit d N y x w' hD' (fun n hn' => (hn n hn').1) ops p₀ hp z' hz' _ _ (by rw [g6]; exact g4)
    (by rw [g6]; exact g5)).2 ((equations_iff _ _).2 ?_)
  rw [enc_beta, enc_lam _ _ hs]
  exact ⟨e1, e2⟩

/-- The hypotheses are met: with one regressor, always 1, the responses 1, 3 and 5 and weights 1, the fit has
`beta = 3`; without the last observation it has `beta = 2`. -/
example : ∃ (p₀ : Param) (y x w w' : Arr), params 1 = .ok p₀ ∧ Data 3 1 y x w ∧ (∀ n < 3, 0 ≤ w.get [n]) ∧
    (gramMatrix 3 1 x w).PosDef ∧ w.get [2] = 1 ∧ w' = ⟨w.shape, w.data.set 2 0⟩ ∧
    (∃ z : List ℝ, z.length = (p₀.run []).freeSize ∧ ObjectiveLocalMin (p₀.run []) y x w z) ∧
    ∃ z : List ℝ, z.length = (p₀.run []).freeSize ∧ ObjectiveLocalMin (p₀.run []) y x w' z := by
  obtain ⟨p, hp, -⟩ := params_ready 1
  have hD : ∀ c : ℝ, Data 3 1 ⟨[3, 1], [1, 3, 5]⟩ ⟨[3, 1], [1, 1, 1]⟩ ⟨[3], [1, 1, c]⟩ := fun c =>
    ⟨⟨rfl, rfl⟩, ⟨rfl, rfl⟩, ⟨rfl, rfl⟩⟩
  have hw : ∀ c : ℝ, 0 ≤ c → ∀ n < 3, 0 ≤ (⟨[3], [1, 1, c]⟩ : Arr).get [n] := by
    intro c hc n hn
    interval_cases n <;> simp [Arr.get, Arr.flat, hc]
  have scal : ∀ a : ℝ, asMatrix 1 ⟨[1, 1], [a]⟩ = a • 1 := by
    intro a
    ext i j
    fin_cases i; fin_cases j
    simp [asMatrix, Arr.at2]
  have fit : ∀ c m a : ℝ, 0 ≤ c → 0 < m → 0 < a → 1 * (1 - m) + 1 * (3 - m) + c * (5 - m) = 0 →
      (1 - m) * (1 - m) + (3 - m) * (3 - m) + c * (5 - m) * (5 - m) = (2 + c) * a⁻¹ →
      ∃ z : List ℝ, z.length = (p.run []).freeSize ∧ ObjectiveLocalMin (p.run []) ⟨[3, 1], [1, 3, 5]⟩
        ⟨[3, 1], [1, 1, 1]⟩ ⟨[3], [1, 1, c]⟩ z := by
    intro c m a hc hm ha h1 h2
    refine (C179_existence 1 3 _ _ _ (hD c) (hw c hc) [] p hp).2
      ⟨⟨[1, 1], [m]⟩, ⟨[1, 1], [a]⟩, ⟨rfl, rfl⟩, ⟨rfl, rfl⟩, ?_, ?_, ?_, ?_⟩
    · intro i j
      fin_cases i; fin_cases j
      simpa [Arr.at2] using hm
    · rw [scal]
      exact Matrix.PosDef.one.smul ha
    · intro i j
      fin_cases i; fin_cases j
      simp [Fin.sum_univ_three, Arr.get, Arr.flat, Arr.at2, Example.residual]
      linarith
    · intro i j
      fin_cases i; fin_cases j
      have hinv : (asMatrix 1 ⟨[1, 1], [a]⟩)⁻¹ 0 0 = a⁻¹ := by
        rw [scal, Matrix.inv_def]
        simp [Ring.inverse_eq_inv']
      simp only [Fin.zero_eta, hinv]
      simp [Fin.sum_univ_three, Arr.get, Arr.flat, Arr.at2, Example.residual]
      linarith
  refine ⟨p, _, _, ⟨[3], [1, 1, 1]⟩, ⟨[3], [1, 1, 0]⟩, hp, hD 1, hw 1 zero_le_one, ?_, ?_, rfl,
    fit 1 3 (3 / 8) zero_le_one (by norm_num) (by norm_num) (by norm_num) (by norm_num),
    fit 0 2 1 le_rfl (by norm_num) (by norm_num) (by norm_num) (by norm_num)⟩
  · have : gramMatrix 3 1 ⟨[3, 1], [1, 1, 1]⟩ ⟨[3], [1, 1, 1]⟩ = (3 : ℝ) • 1 := by
      ext i j
      fin_cases i; fin_cases j
      simp [gramMatrix, Arr.at2, Arr.get, Arr.flat, Fin.sum_univ_three]
      norm_num
    rw [this]
    exact Matrix.PosDef.one.smul (by norm_num)
  · simp [Arr.get, Arr.flat]

end

end LRVB
