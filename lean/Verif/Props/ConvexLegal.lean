import Verif.Props.LegalValues
import Verif.Props.FullRank

/-!
# C196: averages of legal values are legal, and convex objectives have no spurious local minima
-/

namespace LRVB

open Flt

/-- The weighted average `t v + (1 - t) w` of two vectors. -/
def mixVec (t : ℝ) (v w : List ℝ) : List ℝ := List.zipWith (fun a b => t * a + (1 - t) * b) v w

theorem mixVec_length {t : ℝ} {v w : List ℝ} {n : ℕ} (hv : v.length = n) (hw : w.length = n) :
    (mixVec t v w).length = n := by
  simp [mixVec, hv, hw]

theorem mixVec_getD {t : ℝ} {v w : List ℝ} (h : v.length = w.length) (k : ℕ) :
    (mixVec t v w).getD k 0 = t * v.getD k 0 + (1 - t) * w.getD k 0 := by
  simp only [mixVec, List.getD_eq_getElem?_getD]
  by_cases hk : k < v.length
  · have hk' : k < w.length := h ▸ hk
    simp [List.getElem?_zipWith, List.getElem?_eq_getElem hk, List.getElem?_eq_getElem hk']
  · have hk' : ¬ k < w.length := h ▸ hk
    simp [List.getElem?_zipWith, List.getElem?_eq_none (not_lt.mp hk), List.getElem?_eq_none (not_lt.mp hk')]

theorem mixVec_take (t : ℝ) (v w : List ℝ) (n : ℕ) :
    (mixVec t v w).take n = mixVec t (v.take n) (w.take n) := List.take_zipWith ..

theorem mixVec_drop (t : ℝ) (v w : List ℝ) (n : ℕ) :
    (mixVec t v w).drop n = mixVec t (v.drop n) (w.drop n) := List.drop_zipWith ..

theorem mixVec_mem {t : ℝ} {v w : List ℝ} {c : ℝ} (h : c ∈ mixVec t v w) :
    ∃ a ∈ v, ∃ b ∈ w, c = t * a + (1 - t) * b := by
  obtain ⟨k, hk, rfl⟩ := List.getElem_of_mem h
  have hk' : k < v.length ∧ k < w.length := by simpa [mixVec] using hk
  exact ⟨v[k], List.getElem_mem _, w[k], List.getElem_mem _, by simp [mixVec]⟩

theorem mix_strict {t a b c : ℝ} (h0 : 0 ≤ t) (h1 : t ≤ 1) (ha : c < a) (hb : c < b) :
    c < t * a + (1 - t) * b := by
  rcases eq_or_lt_of_le h0 with h | h
  · subst h; simpa using hb
  · nlinarith [mul_pos h (sub_pos.mpr ha), mul_nonneg (sub_nonneg.mpr h1) (sub_pos.mpr hb).le]

theorem mix_strict' {t a b c : ℝ} (h0 : 0 ≤ t) (h1 : t ≤ 1) (ha : a < c) (hb : b < c) :
    t * a + (1 - t) * b < c := by
  have := mix_strict (c := -c) (a := -a) (b := -b) h0 h1 (by linarith) (by linarith)
  linarith

theorem bounded_mix {lb ub : Flt} {t : ℝ} {v w : List ℝ} (h0 : 0 ≤ t) (h1 : t ≤ 1)
    (hv : ∀ a ∈ v, lb < fin a ∧ fin a < ub) (hw : ∀ a ∈ w, lb < fin a ∧ fin a < ub) :
    ∀ a ∈ mixVec t v w, lb < fin a ∧ fin a < ub := by
  intro c hc
  obtain ⟨a, ha, b, hb, rfl⟩ := mixVec_mem hc
  obtain ⟨a1, a2⟩ := hv a ha
  obtain ⟨b1, b2⟩ := hw b hb
  constructor
  · cases lb with
    | fin l => exact mix_strict h0 h1 a1 b1
    | pinf => exact a1
    | ninf => trivial
    | nan => exact a1
  · cases ub with
    | fin u => exact mix_strict' h0 h1 a2 b2
    | pinf => trivial
    | ninf => exact a2
    | nan => exact a2

theorem legalTri_mix {n : ℕ} {d t : ℝ} {v w : List ℝ} (h : v.length = w.length) (h0 : 0 ≤ t) (h1 : t ≤ 1)
    (hv : LegalTri n d v) (hw : LegalTri n d w) : LegalTri n d (mixVec t v w) := by
  unfold LegalTri at *
  set A := Matrix.of (fun i j : Fin n => v.getD (max i j * (max i j + 1) / 2 + min (i : ℕ) j) 0) -
    d • (1 : Matrix (Fin n) (Fin n) ℝ) with hA
  set B := Matrix.of (fun i j : Fin n => w.getD (max i j * (max i j + 1) / 2 + min (i : ℕ) j) 0) -
    d • (1 : Matrix (Fin n) (Fin n) ℝ) with hB
  have e : (Matrix.of (fun i j : Fin n => (mixVec t v w).getD (max i j * (max i j + 1) / 2 + min (i : ℕ) j) 0) -
    d • (1 : Matrix (Fin n) (Fin n) ℝ)) = t • A + (1 - t) • B := by
    ext i j
    simp only [hA, hB, Matrix.sub_apply, Matrix.of_apply, Matrix.add_apply, Matrix.smul_apply, smul_eq_mul]
    rw [mixVec_getD h]
    ring
  rw [e]
  rcases eq_or_lt_of_le h0 with h | h
  · subst h; simpa using hw
  · exact (hv.smul h).add_posSemidef (hw.posSemidef.smul (sub_nonneg.mpr h1))

theorem Kind.legalVec_mix (k : Kind) {t : ℝ} {v w : List ℝ} (h : v.length = w.length)
    (h0 : 0 ≤ t) (h1 : t ≤ 1) (hv : k.LegalVec v) (hw : k.LegalVec w) : k.LegalVec (mixVec t v w) := by
  cases k with
  | scalar lb ub => exact bounded_mix h0 h1 hv hw
  | vector n lb ub => exact bounded_mix h0 h1 hv hw
  | array s lb ub => exact bounded_mix h0 h1 hv hw
  | posdef n d => exact legalTri_mix h h0 h1 hv hw
  | posdefVec len n d =>
    intro b hb
    rw [mixVec_drop, mixVec_take]
    exact legalTri_mix (by simp [h]) h0 h1 (hv b hb) (hw b hb)
  | posdefArr s n d =>
    intro b hb
    rw [mixVec_drop, mixVec_take]
    exact legalTri_mix (by simp [h]) h0 h1 (hv b hb) (hw b hb)
  | simplex r c =>
    refine ⟨fun a ha => ?_, fun i hi => ?_⟩
    · obtain ⟨x, hx, y, hy, rfl⟩ := mixVec_mem ha
      exact mix_strict h0 h1 (hv.1 x hx) (hw.1 y hy)
    · simp only [mixVec_getD h]
      rw [Finset.sum_add_distrib, ← Finset.mul_sum, ← Finset.mul_sum, hv.2 i hi, hw.2 i hi]
      ring
  | subspace dim free basis =>
    intro u hu
    have e : ∀ k, u k * (mixVec t v w).getD k 0 =
        t * (u k * v.getD k 0) + (1 - t) * (u k * w.getD k 0) := by
      intro k
      rw [mixVec_getD h]; ring
    simp only [e]
    rw [Finset.sum_add_distrib, ← Finset.mul_sum, ← Finset.mul_sum, hv u hu, hw u hu]
    ring

mutual
theorem Param.legalVec_mix : ∀ (p : Param) {t : ℝ} {v w : List ℝ}, v.length = w.length →
    0 ≤ t → t ≤ 1 → p.LegalVec v → p.LegalVec w → p.LegalVec (mixVec t v w)
  | .leaf l, _, _, _, h, h0, h1, hv, hw => l.kind.legalVec_mix h h0 h1 hv hw
  | .dict _ es, _, _, _, h, h0, h1, hv, hw => Entries.legalVec_mix es h h0 h1 hv hw
theorem Entries.legalVec_mix : ∀ (es : Entries) {t : ℝ} {v w : List ℝ}, v.length = w.length →
    0 ≤ t → t ≤ 1 → es.LegalVec v → es.LegalVec w → es.LegalVec (mixVec t v w)
  | .nil, _, _, _, _, _, _, _, _ => trivial
  | .cons _ p rest, _, v, w, h, h0, h1, hv, hw => by
    simp only [Entries.LegalVec] at hv hw ⊢
    rw [mixVec_take, mixVec_drop]
    exact ⟨Param.legalVec_mix p (by simp [h]) h0 h1 hv.1 hw.1,
      Entries.legalVec_mix rest (by simp [h]) h0 h1 hv.2 hw.2⟩
end

/-- A free vector of the right length has a vector of the right length, and it is legal. -/
theorem legal_of_free {eigh : Eigh} (he : EighContract eigh) {p : Param} (hb : Built eigh p)
    (hp : p.HasParams) {x v : List ℝ} (hx : x.length = p.freeSize) (hv : p.freeToVectorVal x = .ok v) :
    v.length = p.vecSize ∧ p.LegalVec v := by
  have hval := p.freeToVectorVal_ok (hb.wf he) hp x hx
  rw [hval.1] at hv
  have hv := Except.ok.inj hv
  have hl : v.length = p.vecSize := by rw [← hv]; exact hval.2
  exact ⟨hl, (p.legal_ftvP (hb.wf he) v hl).mpr ⟨x, hx, hv⟩⟩

/-- **C196** (averages) For any two free vectors `x` and `y` and `0 ≤ t ≤ 1`, the average
`t v + (1 - t) w` of their vectors is the vector of exactly one free vector `z`; setting it with
`set_vector` is the same as `set_free(z)`, and `get_free()` then returns `z`. -/
theorem C196_averages {eigh : Eigh} (he : EighContract eigh) (p : Param) (hb : Built eigh p)
    (hp : p.HasParams) (x y v w : List ℝ) (t : ℝ) (hx : x.length = p.freeSize) (hy : y.length = p.freeSize)
    (hv : p.freeToVectorVal x = .ok v) (hw : p.freeToVectorVal y = .ok w) (h0 : 0 ≤ t) (h1 : t ≤ 1) :
    (∃! z : List ℝ, z.length = p.freeSize ∧ p.freeToVectorVal z = .ok (mixVec t v w)) ∧
    ∃ p' z, p.setVector (mixVec t v w) = (p', none) ∧ p'.getFree = .ok z ∧
      p.freeToVectorVal z = .ok (mixVec t v w) ∧ p.setFree z = (p', none) := by
  obtain ⟨lv, kv⟩ := legal_of_free he hb hp hx hv
  obtain ⟨lw, kw⟩ := legal_of_free he hb hp hy hw
  have hl := p.legalVec_mix (lv.trans lw.symm) h0 h1 kv kw
  have hlen := mixVec_length (t := t) lv lw
  refine ⟨(C150_image he p hb hp _ hlen).mp hl, ?_⟩
  obtain ⟨p', z, a1, a2, -, a3, a4⟩ := C150_set_vector_get_free he p hb hp _ hlen hl
  exact ⟨p', z, a1, a2, a3, a4⟩

/-- `f` is convex on the vectors that free vectors give. -/
def ConvexOnLegal (p : Param) (f : List ℝ → ℝ) : Prop :=
  ∀ x y v w t, x.length = p.freeSize → y.length = p.freeSize → p.freeToVectorVal x = .ok v →
    p.freeToVectorVal y = .ok w → 0 < t → t < 1 → f (mixVec t v w) ≤ t * f v + (1 - t) * f w

/-- `f` is strictly convex on the vectors that free vectors give. -/
def StrictConvexOnLegal (p : Param) (f : List ℝ → ℝ) : Prop :=
  ∀ x y v w t, x.length = p.freeSize → y.length = p.freeSize → p.freeToVectorVal x = .ok v →
    p.freeToVectorVal y = .ok w → v ≠ w → 0 < t → t < 1 → f (mixVec t v w) < t * f v + (1 - t) * f w

theorem StrictConvexOnLegal.convex {p : Param} {f : List ℝ → ℝ} (hf : StrictConvexOnLegal p f) :
    ConvexOnLegal p f := by
  intro x y v w t hx hy hv hw h0 h1
  by_cases hvw : v = w
  · subst hvw
    have : mixVec t v v = v := by
      apply List.ext_getElem (by simp [mixVec])
      intro k _ _
      simp [mixVec]; ring
    rw [this]; linarith
  · exact (hf x y v w t hx hy hv hw hvw h0 h1).le

/-- **C196** (convex objectives) If the objective is convex as a function of the constrained vector,
every local minimizer in the free parameterization is a global one, although the objective need not be
convex as a function of the free vector. -/
theorem C196_local_is_global {eigh : Eigh} (he : EighContract eigh) (p : Param) (hb : Built eigh p)
    (hp : p.HasParams) (f : List ℝ → ℝ) (hf : ConvexOnLegal p f) (x v : List ℝ)
    (hx : x.length = p.freeSize) (hv : p.freeToVectorVal x = .ok v) (hmin : FreeLocalMin p f x)
    (y w : List ℝ) (hy : y.length = p.freeSize) (hw : p.freeToVectorVal y = .ok w) : f v ≤ f w := by
  obtain ⟨lv, kv⟩ := legal_of_free he hb hp hx hv
  obtain ⟨lw, kw⟩ := legal_of_free he hb hp hy hw
  obtain ⟨-, ε, hε, h⟩ := (C150_local_minima he p hb hp f x v hx hv).mp hmin
  set M := ∑ i ∈ Finset.range p.vecSize, |w.getD i 0 - v.getD i 0| with hM
  have hM0 : 0 ≤ M := Finset.sum_nonneg fun _ _ => abs_nonneg _
  set s := ε / (ε + 1 + M) with hs
  have hden : 0 < ε + 1 + M := by linarith
  have hs0 : 0 < s := div_pos hε hden
  have hs1 : s < 1 := by rw [hs, div_lt_one hden]; linarith
  have hsM : s * M < ε := by
    rw [hs, div_mul_eq_mul_div, div_lt_iff₀ hden]
    nlinarith
  have hl := p.legalVec_mix (t := 1 - s) (lv.trans lw.symm) (by linarith) (by linarith) kv kw
  have h2 := h _ (mixVec_length lv lw) hl (by
    intro i hi
    rw [mixVec_getD (lv.trans lw.symm)]
    have e : (1 - s) * v.getD i 0 + (1 - (1 - s)) * w.getD i 0 - v.getD i 0 =
        s * (w.getD i 0 - v.getD i 0) := by ring
    rw [e, abs_mul, abs_of_pos hs0]
    have : |w.getD i 0 - v.getD i 0| ≤ M :=
      Finset.single_le_sum (f := fun i => |w.getD i 0 - v.getD i 0|) (fun _ _ => abs_nonneg _)
        (Finset.mem_range.mpr hi)
    nlinarith)
  have h3 := hf x y v w (1 - s) hx hy hv hw (by linarith) (by linarith)
  nlinarith

/-- **C196** (strictly convex objectives) There is at most one local minimizer in the free
parameterization. -/
theorem C196_unique_minimum {eigh : Eigh} (he : EighContract eigh) (p : Param) (hb : Built eigh p)
    (hp : p.HasParams) (f : List ℝ → ℝ) (hf : StrictConvexOnLegal p f) (x y : List ℝ)
    (hx : x.length = p.freeSize) (hy : y.length = p.freeSize)
    (hmx : FreeLocalMin p f x) (hmy : FreeLocalMin p f y) : x = y := by
  obtain ⟨v, hv, -⟩ := id hmx
  obtain ⟨w, hw, -⟩ := id hmy
  obtain ⟨lv, kv⟩ := legal_of_free he hb hp hx hv
  obtain ⟨lw, kw⟩ := legal_of_free he hb hp hy hw
  have hc := hf.convex
  have hg1 := C196_local_is_global he p hb hp f hc x v hx hv hmx
  have hg2 := C196_local_is_global he p hb hp f hc y w hy hw hmy
  have hvw : v = w := by
    by_contra hne
    obtain ⟨⟨z, ⟨hz, hzv⟩, -⟩, -⟩ := C196_averages he p hb hp x y v w (1 / 2) hx hy hv hw (by norm_num) (by norm_num)
    have h1 := hg1 z _ hz hzv
    have h2 := hf x y v w (1 / 2) hx hy hv hw hne (by norm_num) (by norm_num)
    have h3 := hg1 y w hy hw
    have h4 := hg2 x v hx hv
    linarith
  subst hvw
  obtain ⟨z, -, hz⟩ := (C150_image he p hb hp v lv).mp kv
  rw [hz x ⟨hx, hv⟩, hz y ⟨hy, hw⟩]

/-- The squared distance to `c` is strictly convex, for any parameter. -/
theorem sqDist_strictConvex {eigh : Eigh} (he : EighContract eigh) {p : Param} (hb : Built eigh p)
    (hp : p.HasParams) (c : List ℝ) :
    StrictConvexOnLegal p fun v => ∑ k ∈ Finset.range p.vecSize, (v.getD k 0 - c.getD k 0) ^ 2 := by
  intro x y v w t hx hy hv hw hne h0 h1
  obtain ⟨lv, -⟩ := legal_of_free he hb hp hx hv
  obtain ⟨lw, -⟩ := legal_of_free he hb hp hy hw
  have hpos : 0 < ∑ k ∈ Finset.range p.vecSize, (v.getD k 0 - w.getD k 0) ^ 2 := by
    refine lt_of_le_of_ne (Finset.sum_nonneg fun _ _ => sq_nonneg _) fun hz => hne ?_
    rw [eq_comm, Finset.sum_eq_zero_iff_of_nonneg fun _ _ => sq_nonneg _] at hz
    apply List.ext_getElem (by rw [lv, lw])
    intro k k1 k2
    have := pow_eq_zero_iff (two_ne_zero) |>.mp (hz k (by simpa [lv] using k1))
    simp only [List.getD_eq_getElem?_getD, List.getElem?_eq_getElem k1, List.getElem?_eq_getElem k2,
      Option.getD_some] at this
    linarith
  have e : ∑ k ∈ Finset.range p.vecSize, ((mixVec t v w).getD k 0 - c.getD k 0) ^ 2 =
      t * ∑ k ∈ Finset.range p.vecSize, (v.getD k 0 - c.getD k 0) ^ 2 +
        (1 - t) * ∑ k ∈ Finset.range p.vecSize, (w.getD k 0 - c.getD k 0) ^ 2 -
        t * (1 - t) * ∑ k ∈ Finset.range p.vecSize, (v.getD k 0 - w.getD k 0) ^ 2 := by
    rw [Finset.mul_sum, Finset.mul_sum, Finset.mul_sum, ← Finset.sum_add_distrib, ← Finset.sum_sub_distrib]
    refine Finset.sum_congr rfl fun k _ => ?_
    rw [mixVec_getD (lv.trans lw.symm)]
    ring
  simp only [e]
  have := mul_pos (mul_pos h0 (sub_pos.mpr h1)) hpos
  linarith

/-- The hypotheses are met: in the example dictionary (a positive scalar and a vector) the squared
distance to `[1, 2, 3]` is strictly convex and has a local minimizer. -/
example : ∃ (eigh : Eigh) (p : Param) (f : List ℝ → ℝ) (x : List ℝ), EighContract eigh ∧ Built eigh p ∧
    p.HasParams ∧ StrictConvexOnLegal p f ∧ x.length = p.freeSize ∧ FreeLocalMin p f x := by
  obtain ⟨eigh, he⟩ := exists_eigh
  have hb := exDict_built eigh
  have hlen : ([1, 2, 3] : List ℝ).length = exDict.vecSize := by rw [exDict_vecSize]; rfl
  have hl : exDict.LegalVec [1, 2, 3] := by
    simp [exDict, exSub, exScalar, exVector, Param.push, Param.emptyDict, Param.LegalVec,
      Entries.LegalVec, Kind.LegalVec, Entries.assign, Param.name, Param.vecSize, Kind.vecSize, Leaf.vecSize]
  obtain ⟨x, ⟨hx, hv⟩, -⟩ := (C150_image he exDict hb exDict_hasParams _ hlen).mp hl
  refine ⟨eigh, exDict, _, x, he, hb, exDict_hasParams,
    sqDist_strictConvex he hb exDict_hasParams [1, 2, 3], hx, _, hv, 1, one_pos, fun y w _ _ _ => ?_⟩
  simp only [sub_self]
  refine le_trans (le_of_eq ?_) (Finset.sum_nonneg fun _ _ => sq_nonneg _)
  simp

/-- The derivative of a smooth function of full rank is injective. -/
theorem fderiv_ker_of_rank {n m : ℕ} {G : List ℝ → List ℝ} {Γ : (Fin n → ℝ) → Fin m → ℝ}
    (h1 : ∀ i, ContDiff ℝ 2 fun u => Γ u i)
    (h3 : ∀ i (hi : i < m), ∀ y : List ℝ, y.length = n → (G y).getD i 0 = Γ (toVec n y) ⟨i, hi⟩)
    {x : List ℝ} (hx : x.length = n) (hr : RankOK n m G x) :
    LinearMap.ker (fderiv ℝ Γ (toVec n x) : (Fin n → ℝ) →ₗ[ℝ] (Fin m → ℝ)) = ⊥ := by
  have hc : ContDiff ℝ 2 Γ := contDiff_pi.mpr h1
  rw [LinearMap.ker_eq_bot']
  intro w hw
  have key := hr (fun j => if hj : j < n then w ⟨j, hj⟩ else 0) (fun i hi => by
    rw [Finset.sum_range]
    have e : ∀ j : Fin n, D1 G x i j = fderiv ℝ Γ (toVec n x) (Pi.single j 1) ⟨i, hi⟩ := by
      intro j
      rw [Smooth.D1_eq (h1 ⟨i, hi⟩) (h3 i hi) hx j]
      have := hasFDerivAt_pi'.mp (hc.differentiable (by norm_num) (toVec n x)).hasFDerivAt ⟨i, hi⟩
      rw [this.fderiv]
      rfl
    simp only [e, Fin.is_lt, dite_true, Fin.eta]
    have := congrFun hw ⟨i, hi⟩
    have e2 := clm_apply_sum ((ContinuousLinearMap.proj ⟨i, hi⟩).comp (fderiv ℝ Γ (toVec n x))) w
    simp only [ContinuousLinearMap.comp_apply, ContinuousLinearMap.proj_apply] at e2
    rw [← show fderiv ℝ Γ (toVec n x) w ⟨i, hi⟩ = 0 from this, e2]
    exact Finset.sum_congr rfl fun j _ => mul_comm _ _)
  funext j
  simpa using key j j.2

/-- **C196** (stationary points) If the objective is convex as a function of the constrained vector and
differentiable at the vector of `x`, and its gradient in the free parameterization vanishes at `x`, then
`x` is a global minimizer; for every parameter and dictionary, simplexes and subspaces included. -/
theorem C196_stationary_is_global {eigh : Eigh} (he : EighContract eigh) (p : Param) (hb : Built eigh p)
    (hp : p.HasParams) (f : (Fin p.vecSize → ℝ) → ℝ)
    (hf : ConvexOnLegal p fun u => f (toVec p.vecSize u)) (x v : List ℝ) (hx : x.length = p.freeSize)
    (hv : p.freeToVectorVal x = .ok v) (hd : DifferentiableAt ℝ f (toVec p.vecSize v))
    (h0 : ∀ a < p.freeSize, PartialDeriv (p.freeObjective f) 0 a x 0)
    (y w : List ℝ) (hy : y.length = p.freeSize) (hw : p.freeToVectorVal y = .ok w) :
    f (toVec p.vecSize v) ≤ f (toVec p.vecSize w) := by
  have hwf := hb.wf he
  have hval := p.freeToVectorVal_ok hwf hp
  have hvx : v = p.ftvP x := by
    rw [(hval x hx).1] at hv; exact (Except.ok.inj hv).symm
  obtain ⟨lv, kv⟩ := legal_of_free he hb hp hx hv
  obtain ⟨lw, kw⟩ := legal_of_free he hb hp hy hw
  obtain ⟨Γ, h1, h2, h3⟩ := (p.smooth_ftvP hwf).exists_fun
  have hΓ : ContDiff ℝ 2 Γ := contDiff_pi.mpr h1
  have hdΓ := (hΓ.differentiable (by norm_num) (toVec p.freeSize x)).hasFDerivAt
  obtain ⟨K, -, hK⟩ := LinearMap.exists_antilipschitzWith _ (fderiv_ker_of_rank h1 h3 hx (p.rank_ftvP hwf hx))
  have hΓx : Γ (toVec p.freeSize x) = toVec p.vecSize v := by rw [← h2 x hx, hvx]
  have hdf : HasFDerivAt f (fderiv ℝ f (toVec p.vecSize v)) (Γ (toVec p.freeSize x)) := by
    rw [hΓx]; exact hd.hasFDerivAt
  have hφ := hdf.comp _ hdΓ
  set D := (fderiv ℝ f (toVec p.vecSize v)).comp (fderiv ℝ Γ (toVec p.freeSize x)) with hD
  have hD0 : D = 0 := by
    ext u
    rw [clm_apply_sum]
    refine Finset.sum_eq_zero fun a _ => ?_
    obtain ⟨g, g1, g2⟩ := h0 a a.2
    have hg : g = fun s => (f ∘ Γ) (Function.update (toVec p.freeSize x) a s) := by
      funext s
      obtain ⟨r, r1, r2⟩ := g1 s
      have hs : (x.set a s).length = p.freeSize := by simpa using hx
      rw [Param.freeObjective, (hval _ hs).1, py_ok_bind] at r1
      obtain rfl := Except.ok.inj r1
      rw [h2 _ hs, toVec_set hx a s] at r2
      simpa using r2.symm
    have hup := _root_.hasDerivAt_update (toVec p.freeSize x) a (x.getD a 0)
    have hself : Function.update (toVec p.freeSize x) a (x.getD a 0) = toVec p.freeSize x := by
      have : x.getD a 0 = toVec p.freeSize x a := rfl
      rw [this, Function.update_eq_self]
    have hφ' : HasFDerivAt (f ∘ Γ) D (Function.update (toVec p.freeSize x) a (x.getD a 0)) := by
      rw [hself]; exact hφ
    have h4 := hφ'.comp_hasDerivAt _ hup
    rw [hg] at g2
    have := g2.unique h4
    simp [← this]
  rw [hD0] at hφ
  have hlo : (fun z => (f ∘ Γ) z - (f ∘ Γ) (toVec p.freeSize x)) =o[nhds (toVec p.freeSize x)]
      fun z => Γ z - Γ (toVec p.freeSize x) := by
    have := hφ.isLittleO
    simp only [zero_apply, sub_zero] at this
    have hi : Topology.IsInducing (fderiv ℝ Γ (toVec p.freeSize x)) :=
      (hK.isUniformInducing (fderiv ℝ Γ (toVec p.freeSize x)).uniformContinuous).isInducing
    exact this.trans_isBigO (hdΓ.isTheta_sub hi).symm.isBigO
  by_contra hlt
  push Not at hlt
  set N := ‖toVec p.vecSize w - toVec p.vecSize v‖ with hN
  have hN0 : 0 ≤ N := norm_nonneg _
  set c := (f (toVec p.vecSize v) - f (toVec p.vecSize w)) / (2 * (N + 1)) with hc
  have hc0 : 0 < c := div_pos (by linarith) (by linarith)
  have hcN : c * N < f (toVec p.vecSize v) - f (toVec p.vecSize w) := by
    rw [hc, div_mul_eq_mul_div, div_lt_iff₀ (by linarith)]
    nlinarith
  obtain ⟨ε, hε, hball⟩ := Metric.eventually_nhds_iff.mp (hlo.def hc0)
  obtain ⟨δ, hδ, hhom⟩ := (C149_homeomorphism he p hb hp x v hx hv ε hε).1
  set s := δ / (δ + 1 + N) with hs
  have hden : 0 < δ + 1 + N := by linarith
  have hs0 : 0 < s := div_pos hδ hden
  have hs1 : s < 1 := by rw [hs, div_lt_one hden]; linarith
  have hsN : s * N < δ := by
    rw [hs, div_mul_eq_mul_div, div_lt_iff₀ hden]
    nlinarith
  have hmix : toVec p.vecSize (mixVec (1 - s) v w) - toVec p.vecSize v =
      s • (toVec p.vecSize w - toVec p.vecSize v) := by
    funext i
    simp only [Pi.sub_apply, Pi.smul_apply, smul_eq_mul]
    change (mixVec (1 - s) v w).getD i 0 - v.getD i 0 = s * (w.getD i 0 - v.getD i 0)
    rw [mixVec_getD (lv.trans lw.symm)]
    ring
  obtain ⟨⟨z, ⟨hz, hzv⟩, -⟩, -⟩ := C196_averages he p hb hp x y v w (1 - s) hx hy hv hw (by linarith) (by linarith)
  have hnorm : ‖toVec p.vecSize (mixVec (1 - s) v w) - toVec p.vecSize v‖ = s * N := by
    rw [hmix, norm_smul, Real.norm_of_nonneg hs0.le]
  have hzx := hhom z _ hz hzv ((dist_toVec_lt hδ).mp (by rw [dist_eq_norm, hnorm]; exact hsN))
  have hb1 := hball ((dist_toVec_lt hε).mpr hzx)
  have hΓz : Γ (toVec p.freeSize z) = toVec p.vecSize (mixVec (1 - s) v w) := by
    rw [← h2 z hz]
    rw [(hval z hz).1] at hzv
    rw [Except.ok.inj hzv]
  simp only [Function.comp_apply, hΓz, hΓx] at hb1
  rw [hnorm, Real.norm_eq_abs] at hb1
  have h5 := (abs_le.mp hb1).1
  have h6 := hf x y v w (1 - s) hx hy hv hw (by linarith) (by linarith)
  simp only at h6
  have h7 : s * (c * N) < s * (f (toVec p.vecSize v) - f (toVec p.vecSize w)) := mul_lt_mul_of_pos_left hcN hs0
  nlinarith

/-- The hypotheses are met: the squared distance to `[1, 2, 3]` is convex and its gradient in the free
parameterization vanishes at the free vector of `[1, 2, 3]`. -/
example : ∃ (eigh : Eigh) (p : Param) (f : (Fin p.vecSize → ℝ) → ℝ) (x v : List ℝ), EighContract eigh ∧
    Built eigh p ∧ p.HasParams ∧ ConvexOnLegal p (fun u => f (toVec p.vecSize u)) ∧
    x.length = p.freeSize ∧ p.freeToVectorVal x = .ok v ∧ DifferentiableAt ℝ f (toVec p.vecSize v) ∧
    ∀ a < p.freeSize, PartialDeriv (p.freeObjective f) 0 a x 0 := by
  obtain ⟨eigh, he⟩ := exists_eigh
  have hb := exDict_built eigh
  have hlen : ([1, 2, 3] : List ℝ).length = exDict.vecSize := by rw [exDict_vecSize]; rfl
  have hl : exDict.LegalVec [1, 2, 3] := by
    simp [exDict, exSub, exScalar, exVector, Param.push, Param.emptyDict, Param.LegalVec,
      Entries.LegalVec, Kind.LegalVec, Entries.assign, Param.name, Param.vecSize, Kind.vecSize, Leaf.vecSize]
  obtain ⟨x, ⟨hx, hv⟩, -⟩ := (C150_image he exDict hb exDict_hasParams _ hlen).mp hl
  set c : Fin exDict.vecSize → ℝ := toVec exDict.vecSize [1, 2, 3] with hc
  set f : (Fin exDict.vecSize → ℝ) → ℝ := fun u => ∑ k, (u k - c k) ^ 2 with hf
  have hcd : ContDiff ℝ 2 f := by fun_prop
  refine ⟨eigh, exDict, f, x, [1, 2, 3], he, hb, exDict_hasParams, ?_, hx, hv,
    hcd.differentiable (by norm_num) _, ?_⟩
  · have := (sqDist_strictConvex he hb exDict_hasParams [1, 2, 3]).convex
    convert this using 2
    rw [hf, Finset.sum_range]
    rfl
  · refine (C147_stationary he exDict hb exDict_hasParams (by rw [exDict_vecSize, exDict_freeSize]) x hx f
      (fun y v _ _ => hcd.contDiffAt) _ hv).mpr ?_
    apply IsLocalMin.fderiv_eq_zero
    refine Filter.Eventually.of_forall fun u => ?_
    have : f c = 0 := by simp [hf]
    change f c ≤ f u
    rw [this]
    exact Finset.sum_nonneg fun _ _ => sq_nonneg _

end LRVB
