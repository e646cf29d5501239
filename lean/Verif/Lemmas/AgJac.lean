import Verif.Lemmas.AgDeriv
import Mathlib.Analysis.Calculus.FDeriv.Prod

/-! The Jacobian operator, and functions of two vectors. -/

namespace LRVB

noncomputable section

theorem agJac_ok {m r : ℕ} {F : List ℝ → Py Arr} {g : ℕ → (Fin m → ℝ) → ℝ}
    (hg : ∀ i < r, Differentiable ℝ (g i))
    (hF : ∀ y : List ℝ, y.length = m →
      F y = .ok (Arr.vec ((List.range r).map fun i => g i (toVec m y)))) {x : List ℝ}
    (hx : x.length = m) (hr : 0 < r) :
    agJac F x = .ok (Arr.ofFn2 r m fun i j => fderiv ℝ (g i) (toVec m x) (basis m j)) := by
  rw [agJac, hF x hx, py_ok_bind, if_neg (by simp [Arr.size, Arr.vec]; omega)]
  congr 1
  have e : (Arr.vec ((List.range r).map fun i => g i (toVec m x))).size = r := by
    simp [Arr.size, Arr.vec]
  rw [e, hx]
  simp only [Arr.ofFn2, Arr.vec, List.length_map, List.length_range, List.cons_append,
    List.nil_append]
  congr 1
  apply List.flatMap_congr
  intro i hi
  apply List.map_congr_left
  intro j hj
  have hi := List.mem_range.mp hi
  refine pd_eq (hg i hi) (fun y hy => ?_) hx (List.mem_range.mp hj)
  rw [hF y hy]
  simp [entryA, Arr.vec, List.getD_eq_getElem?_getD, List.getElem?_range, hi]

theorem SecondPartialDeriv.unique {F : List ℝ → Py (List ℝ)} {i a b : ℕ} {x : List ℝ} {d d' : ℝ}
    (h : SecondPartialDeriv F i a b x d) (h' : SecondPartialDeriv F i a b x d') : d = d' := by
  obtain ⟨D, hD, hd⟩ := h
  obtain ⟨D', hD', hd'⟩ := h'
  have : D = D' := funext fun s => (hD s).unique (hD' s)
  subst this
  exact hd.unique hd'

theorem Arr.mat_ext {M N : Arr} {r c : ℕ} (hM : IsMat M r c) (hN : IsMat N r c)
    (h : ∀ i < r, ∀ j < c, M.at2 i j = N.at2 i j) : M = N := by
  obtain ⟨s, d⟩ := M
  obtain ⟨s', d'⟩ := N
  obtain ⟨h1, rfl : s = [r, c]⟩ := hM
  obtain ⟨h2, rfl : s' = [r, c]⟩ := hN
  simp only [Arr.WF, List.prod_cons, List.prod_nil, mul_one] at h1 h2
  congr 1
  apply List.ext_getElem (h1.trans h2.symm)
  intro k hk hk'
  have hc : 0 < c := Nat.pos_of_ne_zero (by rintro rfl; omega)
  have := h (k / c) ((Nat.div_lt_iff_lt_mul hc).mpr (h1 ▸ hk)) (k % c) (Nat.mod_lt _ hc)
  simp only [Arr.at2] at this
  have e : k / c * c + k % c = k := Nat.div_add_mod' k c
  simp [List.getD_eq_getElem?_getD, e, hk, hk'] at this
  exact this

section Two

variable {n1 n2 : ℕ} {f : (Fin n1 → ℝ) × (Fin n2 → ℝ) → ℝ}

theorem contDiff_left (hf : ContDiff ℝ 2 f) (v : Fin n2 → ℝ) : ContDiff ℝ 2 fun u => f (u, v) :=
  hf.comp (contDiff_id.prodMk contDiff_const)

theorem contDiff_right (hf : ContDiff ℝ 2 f) (u : Fin n1 → ℝ) : ContDiff ℝ 2 fun v => f (u, v) :=
  hf.comp (contDiff_const.prodMk contDiff_id)

theorem fderiv_left (hf : ContDiff ℝ 2 f) (u w : Fin n1 → ℝ) (v : Fin n2 → ℝ) :
    fderiv ℝ (fun u => f (u, v)) u w = fderiv ℝ f (u, v) (w, 0) := by
  have h1 : HasFDerivAt f (fderiv ℝ f (u, v)) (u, v) :=
    (hf.differentiable (by norm_num) _).hasFDerivAt
  have h2 := h1.comp (f := fun u => (u, v)) u ((hasFDerivAt_id u).prodMk (hasFDerivAt_const v u))
  have h3 : fderiv ℝ (fun u => f (u, v)) u = _ := h2.fderiv
  rw [h3]; simp

theorem fderiv_right (hf : ContDiff ℝ 2 f) (u : Fin n1 → ℝ) (v w : Fin n2 → ℝ) :
    fderiv ℝ (fun v => f (u, v)) v w = fderiv ℝ f (u, v) (0, w) := by
  have h1 : HasFDerivAt f (fderiv ℝ f (u, v)) (u, v) :=
    (hf.differentiable (by norm_num) _).hasFDerivAt
  have h2 := h1.comp v ((hasFDerivAt_const u v).prodMk (hasFDerivAt_id v))
  have h3 : fderiv ℝ (fun v => f (u, v)) v = _ := h2.fderiv
  rw [h3]; simp

theorem fderiv2_hasFDerivAt (hf : ContDiff ℝ 2 f) (p q : (Fin n1 → ℝ) × (Fin n2 → ℝ)) :
    HasFDerivAt (fun p => fderiv ℝ f p q) ((fderiv ℝ (fderiv ℝ f) p).flip q) p := by
  have hdd : Differentiable ℝ (fderiv ℝ f) :=
    (hf.fderiv_right (m := 1) (by norm_num)).differentiable (by norm_num)
  have := (hdd p).hasFDerivAt.clm_apply (hasFDerivAt_const q p)
  refine this.congr_fderiv ?_
  ext <;> simp

theorem grad1_hasFDerivAt (hf : ContDiff ℝ 2 f) (u w : Fin n1 → ℝ) (v : Fin n2 → ℝ) :
    HasFDerivAt (fun v => fderiv ℝ f (u, v) (w, 0))
      (((fderiv ℝ (fderiv ℝ f) (u, v)).flip (w, 0)).comp (ContinuousLinearMap.inr ℝ _ _)) v := by
  have h := (fderiv2_hasFDerivAt hf (u, v) (w, 0)).comp v
    ((hasFDerivAt_const u v).prodMk (hasFDerivAt_id v))
  refine h.congr_fderiv ?_
  ext; simp

theorem grad2_hasFDerivAt (hf : ContDiff ℝ 2 f) (u : Fin n1 → ℝ) (v w : Fin n2 → ℝ) :
    HasFDerivAt (fun u => fderiv ℝ f (u, v) (0, w))
      (((fderiv ℝ (fderiv ℝ f) (u, v)).flip (0, w)).comp (ContinuousLinearMap.inl ℝ _ _)) u := by
  have h := (fderiv2_hasFDerivAt hf (u, v) (0, w)).comp (f := fun u => (u, v)) u
    ((hasFDerivAt_id u).prodMk (hasFDerivAt_const v u))
  refine h.congr_fderiv ?_
  ext; simp

variable {F : List ℝ → List ℝ → Py Arr}

theorem agGrad1_ok (hf : ContDiff ℝ 2 f)
    (hF : ∀ y1 y2 : List ℝ, y1.length = n1 → y2.length = n2 →
      F y1 y2 = .ok (Arr.scalar (f (toVec n1 y1, toVec n2 y2)))) {x1 x2 : List ℝ}
    (h1 : x1.length = n1) (h2 : x2.length = n2) :
    TwoObjective.agGrad1 F x1 x2 =
      .ok ((List.range n1).map fun i => fderiv ℝ f (toVec n1 x1, toVec n2 x2) (basis n1 i, 0)) := by
  rw [TwoObjective.agGrad1, agGrad_ok (contDiff_left hf (toVec n2 x2)) (fun y hy => hF y x2 hy h2) h1]
  congr 1
  exact List.map_congr_left fun i _ => fderiv_left hf _ _ _

theorem agGrad2_ok (hf : ContDiff ℝ 2 f)
    (hF : ∀ y1 y2 : List ℝ, y1.length = n1 → y2.length = n2 →
      F y1 y2 = .ok (Arr.scalar (f (toVec n1 y1, toVec n2 y2)))) {x1 x2 : List ℝ}
    (h1 : x1.length = n1) (h2 : x2.length = n2) :
    TwoObjective.agGrad2 F x1 x2 =
      .ok ((List.range n2).map fun j => fderiv ℝ f (toVec n1 x1, toVec n2 x2) (0, basis n2 j)) := by
  rw [TwoObjective.agGrad2, agGrad_ok (contDiff_right hf (toVec n1 x1)) (fun y hy => hF x1 y h1 hy) h2]
  congr 1
  exact List.map_congr_left fun i _ => fderiv_right hf _ _ _

theorem agHessian12_ok (hf : ContDiff ℝ 2 f)
    (hF : ∀ y1 y2 : List ℝ, y1.length = n1 → y2.length = n2 →
      F y1 y2 = .ok (Arr.scalar (f (toVec n1 y1, toVec n2 y2)))) {x1 x2 : List ℝ}
    (h1 : x1.length = n1) (h2 : x2.length = n2) (hn : 0 < n1) :
    TwoObjective.agHessian12 F x1 x2 = .ok (Arr.ofFn2 n1 n2 fun i j =>
      fderiv ℝ (fderiv ℝ f) (toVec n1 x1, toVec n2 x2) (0, basis n2 j) (basis n1 i, 0)) := by
  rw [TwoObjective.agHessian12, agJac_ok (r := n1)
    (g := fun i v => fderiv ℝ f (toVec n1 x1, v) (basis n1 i, 0))
    (fun i _ v => (grad1_hasFDerivAt hf _ _ v).differentiableAt)
    (fun y hy => by rw [agGrad1_ok hf hF h1 hy]; rfl) h2 hn]
  simp only [(grad1_hasFDerivAt hf _ _ _).fderiv]
  simp

theorem agHessian21_ok (hf : ContDiff ℝ 2 f)
    (hF : ∀ y1 y2 : List ℝ, y1.length = n1 → y2.length = n2 →
      F y1 y2 = .ok (Arr.scalar (f (toVec n1 y1, toVec n2 y2)))) {x1 x2 : List ℝ}
    (h1 : x1.length = n1) (h2 : x2.length = n2) (hn : 0 < n2) :
    TwoObjective.agHessian21 F x1 x2 = .ok (Arr.ofFn2 n2 n1 fun j i =>
      fderiv ℝ (fderiv ℝ f) (toVec n1 x1, toVec n2 x2) (basis n1 i, 0) (0, basis n2 j)) := by
  rw [TwoObjective.agHessian21, agJac_ok (r := n2)
    (g := fun j u => fderiv ℝ f (u, toVec n2 x2) (0, basis n2 j))
    (fun i _ v => (grad2_hasFDerivAt hf v _ _).differentiableAt)
    (fun y hy => by rw [agGrad2_ok hf hF hy h2]; rfl) h1 hn]
  simp only [(grad2_hasFDerivAt hf _ _ _).fderiv]
  simp

end Two

end

end LRVB
