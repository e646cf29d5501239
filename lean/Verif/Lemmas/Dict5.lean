import Verif.Lemmas.Dict4
import Mathlib.Analysis.Calculus.Deriv.Prod

/-! The second-order chain rule for `convert_vector_to_free_hessian`. -/

namespace LRVB

/-! ### `ftvP` depends only on the structure -/

mutual
theorem Param.ftvP_erase : ∀ (p : Param) (x : List ℝ), p.erase.ftvP x = p.ftvP x
  | .leaf l, x => rfl
  | .dict h es, x => by
    simp only [Param.erase, Param.ftvP]
    exact Entries.ftvE_erase es x
theorem Entries.ftvE_erase : ∀ (es : Entries) (x : List ℝ), es.erase.ftvE x = es.ftvE x
  | .nil, x => rfl
  | .cons k p rest, x => by
    simp only [Entries.erase, Entries.ftvE, Param.freeSize_erase]
    rw [Param.ftvP_erase p, Entries.ftvE_erase rest]
end

theorem Param.ftvP_congr {p q : Param} (h : p.erase = q.erase) : p.ftvP = q.ftvP := by
  funext x
  rw [← p.ftvP_erase, h, q.ftvP_erase]

/-! ### The chain rule -/

theorem clm_apply_sum {n : ℕ} (L : (Fin n → ℝ) →L[ℝ] ℝ) (w : Fin n → ℝ) :
    L w = ∑ i, w i * L (Pi.single i 1) := by
  conv_lhs => rw [← Finset.univ_sum_single w]
  rw [map_sum]
  apply Finset.sum_congr rfl
  intro i _
  rw [show (Pi.single i (w i) : Fin n → ℝ) = w i • Pi.single i 1 by
    rw [← Pi.single_smul']; simp, map_smul, smul_eq_mul]

/-- The objective as a function of the free vector. -/
noncomputable def objG (nv : ℕ) (f : (Fin nv → ℝ) → ℝ) (G : List ℝ → List ℝ) (y : List ℝ) : List ℝ :=
  [f (toVec nv (G y))]

theorem exists_toVec {n : ℕ} (u : Fin n → ℝ) : ∃ y : List ℝ, y.length = n ∧ toVec n y = u := by
  refine ⟨List.ofFn u, by simp, ?_⟩
  funext i
  simp [toVec, List.getD_eq_getElem?_getD]

section Chain

variable {nf nv : ℕ} {G : List ℝ → List ℝ} {f : (Fin nv → ℝ) → ℝ}

/-- A smooth list function as a function between coordinate spaces. -/
theorem Smooth.exists_fun (h : Smooth nf nv G) : ∃ Γ : (Fin nf → ℝ) → Fin nv → ℝ,
    (∀ i, ContDiff ℝ 2 fun u => Γ u i) ∧
    (∀ y : List ℝ, y.length = nf → toVec nv (G y) = Γ (toVec nf y)) ∧
    ∀ i (hi : i < nv), ∀ y : List ℝ, y.length = nf → (G y).getD i 0 = Γ (toVec nf y) ⟨i, hi⟩ := by
  choose g hg hG using h
  refine ⟨fun u i => g i i.2 u, fun i => hg i i.2, ?_, fun i hi y hy => hG i hi y hy⟩
  intro y hy
  funext i
  exact hG i i.2 y hy

theorem smooth_objG (h : Smooth nf nv G)
    (hf : ∀ y : List ℝ, y.length = nf → ContDiffAt ℝ 2 f (toVec nv (G y))) :
    Smooth nf 1 (objG nv f G) := by
  obtain ⟨Γ, h1, h2, _⟩ := h.exists_fun
  intro i hi
  refine ⟨fun u => f (Γ u), ?_, ?_⟩
  · rw [contDiff_iff_contDiffAt]
    intro u
    obtain ⟨y, hy, rfl⟩ := exists_toVec u
    have := hf y hy
    rw [h2 y hy] at this
    exact this.comp _ (contDiff_pi.mpr h1).contDiffAt
  · intro y hy
    have : i = 0 := by omega
    subst this
    simp [objG, h2 y hy]

theorem D1_objG (h : Smooth nf nv G)
    (hf : ∀ y : List ℝ, y.length = nf → ContDiffAt ℝ 2 f (toVec nv (G y))) {y : List ℝ}
    (hy : y.length = nf) {a : ℕ} (ha : a < nf) :
    D1 (objG nv f G) y 0 a =
      ∑ i : Fin nv, D1 G y i a * fderiv ℝ f (toVec nv (G y)) (Pi.single i 1) := by
  obtain ⟨Γ, h1, h2, h3⟩ := h.exists_fun
  unfold D1
  have e : (fun s => (objG nv f G (y.set a s)).getD 0 0) =
      fun s => f (Γ (Function.update (toVec nf y) ⟨a, ha⟩ s)) := by
    funext s
    rw [← toVec_set hy ⟨a, ha⟩ s]
    simp [objG, h2 (y.set a s) (by simpa using hy)]
  rw [e]
  have d1 : HasDerivAt (fun s => Γ (Function.update (toVec nf y) ⟨a, ha⟩ s))
      (fun i => fderiv ℝ (fun u => Γ u i) (toVec nf y) (Pi.single ⟨a, ha⟩ 1)) (toVec nf y ⟨a, ha⟩) := by
    rw [hasDerivAt_pi]
    intro i
    exact LRVB.hasDerivAt_update ((h1 i).differentiable (by norm_num)) _ _
  have hd : HasFDerivAt f (fderiv ℝ f (toVec nv (G y)))
      (Γ (Function.update (toVec nf y) ⟨a, ha⟩ (toVec nf y ⟨a, ha⟩))) := by
    rw [Function.update_eq_self, ← h2 y hy]
    exact ((hf y hy).differentiableAt (by norm_num)).hasFDerivAt
  have d2 := hd.comp_hasDerivAt _ d1
  refine d2.deriv.trans ?_
  rw [clm_apply_sum]
  apply Finset.sum_congr rfl
  intro i _
  congr 1
  exact (Smooth.D1_eq (h1 i) (h3 i i.2) hy ⟨a, ha⟩).symm

theorem D2_objG (h : Smooth nf nv G)
    (hf : ∀ y : List ℝ, y.length = nf → ContDiffAt ℝ 2 f (toVec nv (G y))) {x : List ℝ}
    (hx : x.length = nf) {a b : ℕ} (ha : a < nf) (hb : b < nf) :
    D2 (objG nv f G) x 0 a b =
      (∑ i : Fin nv, D2 G x i a b * fderiv ℝ f (toVec nv (G x)) (Pi.single i 1)) +
      ∑ i : Fin nv, ∑ j : Fin nv, D1 G x i a *
        fderiv ℝ (fderiv ℝ f) (toVec nv (G x)) (Pi.single j 1) (Pi.single i 1) * D1 G x j b := by
  obtain ⟨Γ, h1, h2, h3⟩ := h.exists_fun
  unfold D2
  have e : (fun s => D1 (objG nv f G) (x.set b s) 0 a) = fun s => ∑ i : Fin nv,
      D1 G (x.set b s) i a *
        fderiv ℝ f (Γ (Function.update (toVec nf x) ⟨b, hb⟩ s)) (Pi.single i 1) := by
    funext s
    rw [D1_objG h hf (by simpa using hx) ha, h2 _ (by simpa using hx), ← toVec_set hx ⟨b, hb⟩ s]
  have d1 : HasDerivAt (fun s => Γ (Function.update (toVec nf x) ⟨b, hb⟩ s))
      (fun i => fderiv ℝ (fun u => Γ u i) (toVec nf x) (Pi.single ⟨b, hb⟩ 1)) (toVec nf x ⟨b, hb⟩) := by
    rw [hasDerivAt_pi]
    intro i
    exact LRVB.hasDerivAt_update ((h1 i).differentiable (by norm_num)) _ _
  have hdd : HasFDerivAt (fderiv ℝ f) (fderiv ℝ (fderiv ℝ f) (toVec nv (G x)))
      (Γ (Function.update (toVec nf x) ⟨b, hb⟩ (toVec nf x ⟨b, hb⟩))) := by
    rw [Function.update_eq_self, ← h2 x hx]
    exact (((hf x hx).fderiv_right (m := 1) (by norm_num)).differentiableAt (by norm_num)).hasFDerivAt
  have d2 := hdd.comp_hasDerivAt _ d1
  have d3 : ∀ i : Fin nv, HasDerivAt (fun s =>
      fderiv ℝ f (Γ (Function.update (toVec nf x) ⟨b, hb⟩ s)) (Pi.single i 1))
      (∑ j : Fin nv, D1 G x j b *
        fderiv ℝ (fderiv ℝ f) (toVec nv (G x)) (Pi.single j 1) (Pi.single i 1)) (toVec nf x ⟨b, hb⟩) := by
    intro i
    have := d2.clm_apply (hasDerivAt_const (toVec nf x ⟨b, hb⟩) (Pi.single i 1 : Fin nv → ℝ))
    refine this.congr_deriv ?_
    rw [map_zero, add_zero]
    rw [show (fderiv ℝ (fderiv ℝ f) (toVec nv (G x)))
        (fun i => fderiv ℝ (fun u => Γ u i) (toVec nf x) (Pi.single ⟨b, hb⟩ 1)) (Pi.single i 1) =
      ((ContinuousLinearMap.apply ℝ ℝ (Pi.single i 1 : Fin nv → ℝ)).comp
        (fderiv ℝ (fderiv ℝ f) (toVec nv (G x))))
        (fun i => fderiv ℝ (fun u => Γ u i) (toVec nf x) (Pi.single ⟨b, hb⟩ 1)) from rfl, clm_apply_sum]
    apply Finset.sum_congr rfl
    intro j _
    rw [← Smooth.D1_eq (h1 j) (h3 j j.2) hx ⟨b, hb⟩]
    rfl
  have d4 : HasDerivAt (fun s => ∑ i : Fin nv, D1 G (x.set b s) i a *
      fderiv ℝ f (Γ (Function.update (toVec nf x) ⟨b, hb⟩ s)) (Pi.single i 1))
      (∑ i : Fin nv, (D2 G x i a b *
        fderiv ℝ f (Γ (Function.update (toVec nf x) ⟨b, hb⟩ (toVec nf x ⟨b, hb⟩))) (Pi.single i 1) +
        D1 G (x.set b (x.getD b 0)) i a * ∑ j : Fin nv, D1 G x j b *
        fderiv ℝ (fderiv ℝ f) (toVec nv (G x)) (Pi.single j 1) (Pi.single i 1))) (x.getD b 0) :=
    HasDerivAt.fun_sum fun i _ => (h.hasDerivAt2 hx i.2 ha hb).mul (d3 i)
  rw [e, d4.deriv, Finset.sum_add_distrib]
  congr 1
  · rw [Function.update_eq_self, ← h2 x hx]
    rfl
  · rw [set_getD_self]
    apply Finset.sum_congr rfl
    intro i _
    rw [Finset.mul_sum]
    apply Finset.sum_congr rfl
    intro j _
    ring

end Chain

/-! ### The method -/

theorem toDense_scale (nr nc : ℕ) (es : List (ℕ × ℕ × ℝ)) (c : ℝ) (a b : ℕ) :
    (⟨nr, nc, es.map fun e => (e.1, e.2.1, e.2.2 * c)⟩ : Coo).toDense a b =
      (⟨nr, nc, es⟩ : Coo).toDense a b * c := by
  simp only [Coo.toDense, List.map_map]
  rw [← List.sum_map_mul_right]
  congr 1
  apply List.map_congr_left
  intro e _
  simp only [Function.comp_apply]
  split_ifs <;> simp

theorem toDense_congr {m : Coo} {nr nc : ℕ} (a b : ℕ) :
    (⟨nr, nc, m.entries⟩ : Coo).toDense a b = m.toDense a b := rfl

theorem Param.convertHessian_ok (p : Param) (hw : p.WF) (hp : p.HasParams) (hv : 0 < p.vecSize)
    (x : List ℝ) (hx : x.length = p.freeSize) (g : List ℝ) (hg : g.length = p.vecSize)
    (H : Arr) (hH : IsMat H p.vecSize p.vecSize) :
    ∃ p' M, p.convertHessian x g H = (p', .ok M) ∧ IsMat M p.freeSize p.freeSize ∧
      ∀ a < p.freeSize, ∀ b < p.freeSize, M.at2 a b =
        (∑ i ∈ Finset.range p.vecSize, D2 p.ftvP x i a b * g.getD i 0) +
        ∑ i ∈ Finset.range p.vecSize, ∑ j ∈ Finset.range p.vecSize,
          D1 p.ftvP x i a * H.at2 i j * D1 p.ftvP x j b := by
  have e1 := p.freeP_erase hw x hx
  obtain ⟨p2, J, hJ, hJ'⟩ := (p.freeP x).jac_ok ((wf_congr e1).mpr hw) ((hasParams_congr e1).mpr hp) x
    (by rw [freeSize_congr e1]; exact hx)
  have e2 : p2.erase = p.erase := by
    have := jac_erase (p.freeP x) x
    rw [hJ] at this
    exact this.trans e1
  have e3 : (p2.freeP x).erase = p.erase :=
    (p2.freeP_erase ((wf_congr e2).mpr hw) x (by rw [freeSize_congr e2]; exact hx)).trans e2
  obtain ⟨p4, ms, hms, hms'⟩ := (p2.freeP x).hess_ok ((wf_congr e3).mpr hw) x
    (by rw [freeSize_congr e3]; exact hx)
  have e4 : p4.erase = p.erase := by
    have := hess_erase (p2.freeP x) x
    rw [hms] at this
    exact this.trans e3
  rw [freeSize_congr e1, vecSize_congr e1, ftvP_congr e1] at hJ'
  rw [freeSize_congr e3, vecSize_congr e3, ftvP_congr e3] at hms'
  have hes : ∀ F : ℕ → Py (List (ℕ × ℕ × ℝ)), (∀ i < p.vecSize, F i =
      .ok ((ms.getD i (⟨0, 0, []⟩ : Coo)).entries.map fun e : ℕ × ℕ × ℝ => (e.1, e.2.1, e.2.2 * g.getD i 0))) →
      (List.range p.vecSize).mapM F =
      .ok ((List.range p.vecSize).map fun i =>
        ((ms.getD i (⟨0, 0, []⟩ : Coo)).entries.map fun e : ℕ × ℕ × ℝ => (e.1, e.2.1, e.2.2 * g.getD i 0))) := by
    intro F hF
    apply mapM_ok_of
    intro i hi
    exact hF i (by simpa using hi)
  have hmk : ∀ e ∈ ((List.range p.vecSize).map fun i =>
        ((ms.getD i (⟨0, 0, []⟩ : Coo)).entries.map fun e : ℕ × ℕ × ℝ => (e.1, e.2.1, e.2.2 * g.getD i 0))).flatten,
      e.1 < p.freeSize ∧ e.2.1 < p.freeSize := by
    intro e he
    rw [List.mem_flatten] at he
    obtain ⟨l, hl, he⟩ := he
    obtain ⟨i, hi, rfl⟩ := List.mem_map.mp hl
    obtain ⟨e', he', rfl⟩ := List.mem_map.mp he
    have hi : i < p.vecSize := by simpa using hi
    have h1 : i < ms.length := by rw [hms'.len]; exact hi
    obtain ⟨g1, g2, g3, _⟩ := hms'.ok i h1
    rw [List.getD_eq_getElem?_getD, List.getElem?_eq_getElem h1] at he'
    have := g3 e' he'
    rw [g1, g2] at this
    exact this
  refine ⟨p4, Arr.ofFn2 p.freeSize p.freeSize fun a b =>
    (⟨p.freeSize, p.freeSize, ((List.range p.vecSize).map fun i =>
        ((ms.getD i (⟨0, 0, []⟩ : Coo)).entries.map fun e : ℕ × ℕ × ℝ =>
          (e.1, e.2.1, e.2.2 * g.getD i 0))).flatten⟩ :
        Coo).toDense a b + sandwich J H a b, ?_, ⟨Arr.ofFn2_WF _ _ _, rfl⟩, fun a ha b hb => ?_⟩
  · simp only [convertHessian]
    rw [setFree_ok p hw x hx]
    simp only [hJ]
    rw [setFree_ok p2 ((wf_congr e2).mpr hw) x (by rw [freeSize_congr e2]; exact hx)]
    simp only [hms, py_ok_bind]
    rw [vecSize_congr e4, freeSize_congr e4, hes, py_ok_bind, if_neg (by omega), Coo.make,
      if_pos hmk, py_ok_bind, if_neg]
    · rw [hJ'.nr, hJ'.nc, hH.2]
      simp
    · intro i hi
      have h1 : i < ms.length := by rw [hms'.len]; exact hi
      have h2 : i < g.length := by rw [hg]; exact hi
      simp [List.getElem?_eq_getElem h1, List.getElem?_eq_getElem h2, List.getD_eq_getElem?_getD]
  · rw [Arr.at2_ofFn2 _ _ _ ha hb]
    congr 1
    · rw [← List.flatMap_def, toDense_flatMap]
      rw [show ∀ f : ℕ → ℝ, ∑ i ∈ Finset.range p.vecSize, f i = ((List.range p.vecSize).map f).sum from
        fun _ => rfl]
      congr 1
      apply List.map_congr_left
      intro i hi
      have hi : i < p.vecSize := by simpa using hi
      have h1 : i < ms.length := by rw [hms'.len]; exact hi
      rw [toDense_scale, toDense_congr, List.getD_eq_getElem?_getD, List.getElem?_eq_getElem h1]
      congr 1
      exact (hms'.ok i h1).2.2.2 a ha b hb
    · unfold sandwich
      rw [hJ'.nr]
      apply Finset.sum_congr rfl
      intro i hi
      apply Finset.sum_congr rfl
      intro j hj
      rw [hJ'.val i (by simpa using hi) a ha, hJ'.val j (by simpa using hj) b hb]

end LRVB
