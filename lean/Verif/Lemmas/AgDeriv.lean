import Verif.Model.Objective
import Verif.Lemmas.Dict5

/-! What the autograd operators return on twice continuously differentiable functions. -/

namespace LRVB

noncomputable section

/-- The unit vector `e_j` of `ℝ^m`. -/
def basis (m j : ℕ) : Fin m → ℝ := fun i => if (i : ℕ) = j then 1 else 0

theorem basis_eq {m j : ℕ} (hj : j < m) : basis m j = Pi.single ⟨j, hj⟩ 1 := by
  funext i
  simp only [basis, Pi.single_apply, Fin.ext_iff]

theorem basis_fin {m : ℕ} (j : Fin m) : basis m j = Pi.single j 1 := basis_eq j.2

theorem pd_hasDerivAt {m : ℕ} {h : List ℝ → ℝ} {g : (Fin m → ℝ) → ℝ}
    (hg : Differentiable ℝ g) (hh : ∀ y : List ℝ, y.length = m → h y = g (toVec m y)) {x : List ℝ}
    (hx : x.length = m) {j : ℕ} (hj : j < m) :
    HasDerivAt (fun s => h (x.set j s)) (fderiv ℝ g (toVec m x) (basis m j)) (x.getD j 0) := by
  have h1 := LRVB.hasDerivAt_update hg (toVec m x) ⟨j, hj⟩
  have h2 : (fun s => h (x.set j s)) = fun s => g (Function.update (toVec m x) ⟨j, hj⟩ s) := by
    funext s
    rw [hh _ (by simpa using hx), ← toVec_set hx ⟨j, hj⟩ s]
  rw [h2, basis_eq hj]
  exact h1

theorem pd_eq {m : ℕ} {h : List ℝ → ℝ} {g : (Fin m → ℝ) → ℝ}
    (hg : Differentiable ℝ g) (hh : ∀ y : List ℝ, y.length = m → h y = g (toVec m y)) {x : List ℝ}
    (hx : x.length = m) {j : ℕ} (hj : j < m) :
    pd h x j = fderiv ℝ g (toVec m x) (basis m j) :=
  (pd_hasDerivAt hg hh hx hj).deriv

section One

variable {m : ℕ} {F : List ℝ → Py Arr} {f : (Fin m → ℝ) → ℝ}

theorem pd1_eq (hf : ContDiff ℝ 2 f)
    (hF : ∀ y : List ℝ, y.length = m → F y = .ok (Arr.scalar (f (toVec m y)))) {x : List ℝ}
    (hx : x.length = m) {j : ℕ} (hj : j < m) :
    pd (fun y => entryA 0 (F y)) x j = fderiv ℝ f (toVec m x) (basis m j) :=
  pd_eq (hf.differentiable (by norm_num)) (fun y hy => by rw [hF y hy]; rfl) hx hj

theorem fderiv_apply_differentiable (hf : ContDiff ℝ 2 f) (v : Fin m → ℝ) :
    Differentiable ℝ fun u => fderiv ℝ f u v :=
  ((hf.fderiv_right (m := 1) (by norm_num)).differentiable (by norm_num)).clm_apply
    (differentiable_const _)

theorem fderiv_fderiv_apply (hf : ContDiff ℝ 2 f) (u v w : Fin m → ℝ) :
    fderiv ℝ (fun u => fderiv ℝ f u v) u w = fderiv ℝ (fderiv ℝ f) u w v := by
  have hdd : Differentiable ℝ (fderiv ℝ f) :=
    (hf.fderiv_right (m := 1) (by norm_num)).differentiable (by norm_num)
  rw [fderiv_clm_apply (hdd _) (differentiableAt_const _)]
  simp

theorem pd2_eq (hf : ContDiff ℝ 2 f)
    (hF : ∀ y : List ℝ, y.length = m → F y = .ok (Arr.scalar (f (toVec m y)))) {x : List ℝ}
    (hx : x.length = m) {i j : ℕ} (hi : i < m) (hj : j < m) :
    pd (fun y => pd (fun z => entryA 0 (F z)) y i) x j =
      fderiv ℝ (fderiv ℝ f) (toVec m x) (basis m j) (basis m i) := by
  rw [pd_eq (fderiv_apply_differentiable hf (basis m i)) (fun y hy => pd1_eq hf hF hy hi) hx hj,
    fderiv_fderiv_apply hf]

theorem agGrad_ok (hf : ContDiff ℝ 2 f)
    (hF : ∀ y : List ℝ, y.length = m → F y = .ok (Arr.scalar (f (toVec m y)))) {x : List ℝ}
    (hx : x.length = m) :
    agGrad F x = .ok ((List.range m).map fun j => fderiv ℝ f (toVec m x) (basis m j)) := by
  rw [agGrad, hF x hx, py_ok_bind, if_neg (by simp [Arr.size, Arr.scalar])]
  congr 1
  rw [hx]
  apply List.map_congr_left
  intro j hj
  exact pd1_eq hf hF hx (List.mem_range.mp hj)

theorem agHess_ok (hf : ContDiff ℝ 2 f)
    (hF : ∀ y : List ℝ, y.length = m → F y = .ok (Arr.scalar (f (toVec m y)))) {x : List ℝ}
    (hx : x.length = m) (hm : 0 < m) :
    agHess F x = .ok (Arr.ofFn2 m m fun i j =>
      fderiv ℝ (fderiv ℝ f) (toVec m x) (basis m j) (basis m i)) := by
  rw [agHess, hF x hx, py_ok_bind, if_neg (by simp [Arr.size, Arr.scalar]; rintro rfl; simp at hx; omega)]
  congr 1
  have e : (Arr.scalar (f (toVec m x))).size = 1 := rfl
  rw [e, hx]
  simp only [Arr.ofFn2, Arr.scalar, List.nil_append, List.range_one, List.flatMap_cons,
    List.flatMap_nil, List.append_nil]
  congr 1
  apply List.flatMap_congr
  intro i hi
  apply List.map_congr_left
  intro j hj
  exact pd2_eq hf hF hx (List.mem_range.mp hi) (List.mem_range.mp hj)

theorem agHvp_ok (hf : ContDiff ℝ 2 f)
    (hF : ∀ y : List ℝ, y.length = m → F y = .ok (Arr.scalar (f (toVec m y)))) {x v : List ℝ}
    (hx : x.length = m) (hv : v.length = m) :
    agHvp F x v = .ok ((List.range m).map fun j => ∑ i ∈ Finset.range m,
      fderiv ℝ (fderiv ℝ f) (toVec m x) (basis m j) (basis m i) * v.getD i 0) := by
  rw [agHvp, hF x hx, py_ok_bind, if_neg (by simp [Arr.size, Arr.scalar]), if_neg (by omega)]
  congr 1
  rw [hx]
  apply List.map_congr_left
  intro j hj
  have hj := List.mem_range.mp hj
  have hg : Differentiable ℝ fun u : Fin m → ℝ =>
      ∑ i ∈ Finset.range m, fderiv ℝ f u (basis m i) * v.getD i 0 :=
    Differentiable.fun_sum fun i _ => (fderiv_apply_differentiable hf (basis m i)).mul_const _
  rw [pd_eq hg (fun y hy => ?_) hx hj]
  · rw [fderiv_fun_sum fun i _ =>
      ((fderiv_apply_differentiable hf (basis m i)).mul_const (v.getD i 0)).differentiableAt]
    rw [ContinuousLinearMap.sum_apply]
    refine Finset.sum_congr rfl fun i _ => ?_
    rw [fderiv_mul_const (fderiv_apply_differentiable hf (basis m i)).differentiableAt]
    simp only [ContinuousLinearMap.smul_apply, smul_eq_mul]
    rw [fderiv_fderiv_apply hf, mul_comm]
  · refine Finset.sum_congr rfl fun i hi => ?_
    rw [pd1_eq hf hF hy (Finset.mem_range.mp hi)]

end One

/-! ### Matrix products -/

/-- `P x` for an array with `r` rows and `c` columns. -/
def mulVecFn (P : Arr) (r c : ℕ) (x : List ℝ) : List ℝ :=
  (List.range r).map fun i => ∑ j ∈ Finset.range c, P.at2 i j * x.getD j 0

theorem mulVec_ok {P : Arr} {r c : ℕ} (hP : P.shape = [r, c]) {x : List ℝ} (hx : x.length = c) :
    P.mulVec x = .ok (mulVecFn P r c x) := by
  unfold Arr.mulVec
  rw [hP]
  exact if_pos hx

@[simp] theorem mulVecFn_length (P : Arr) (r c : ℕ) (x : List ℝ) : (mulVecFn P r c x).length = r := by
  simp [mulVecFn]

theorem mulVecFn_getD (P : Arr) (r c : ℕ) (x : List ℝ) {i : ℕ} (hi : i < r) :
    (mulVecFn P r c x).getD i 0 = ∑ j ∈ Finset.range c, P.at2 i j * x.getD j 0 := by
  simp [mulVecFn, List.getD_eq_getElem?_getD, hi]

theorem matmul_ok {a b : Arr} {r c d : ℕ} (ha : a.shape = [r, c]) (hb : b.shape = [c, d]) :
    a.matmul b = .ok (Arr.ofFn2 r d fun i k => ∑ j ∈ Finset.range c, a.at2 i j * b.at2 j k) := by
  unfold Arr.matmul
  rw [ha, hb]
  exact if_pos rfl

/-- A row of `P` as a function. -/
def rowFn (P : Arr) (c i : ℕ) (u : Fin c → ℝ) : ℝ := ∑ j : Fin c, P.at2 i j * u j

theorem rowFn_toVec (P : Arr) (c i : ℕ) (x : List ℝ) :
    rowFn P c i (toVec c x) = ∑ j ∈ Finset.range c, P.at2 i j * x.getD j 0 := by
  rw [← Fin.sum_univ_eq_sum_range fun j => P.at2 i j * x.getD j 0]
  rfl

theorem rowFn_contDiff (P : Arr) (c i : ℕ) : ContDiff ℝ 2 (rowFn P c i) := by
  unfold rowFn
  fun_prop

theorem rowFn_fderiv (P : Arr) (c i : ℕ) (u v : Fin c → ℝ) :
    fderiv ℝ (rowFn P c i) u v = rowFn P c i v := by
  let L : (Fin c → ℝ) →L[ℝ] ℝ :=
    LinearMap.toContinuousLinearMap
      { toFun := rowFn P c i
        map_add' := fun x y => by simp [rowFn, mul_add, Finset.sum_add_distrib]
        map_smul' := fun a x => by
          simp only [rowFn, Pi.smul_apply, smul_eq_mul, RingHom.id_apply, Finset.mul_sum]
          exact Finset.sum_congr rfl fun _ _ => by ring }
  have : rowFn P c i = L := rfl
  rw [this, ContinuousLinearMap.fderiv]

theorem rowFn_basis (P : Arr) (c i : ℕ) (j : Fin c) : rowFn P c i (Pi.single j 1) = P.at2 i j := by
  unfold rowFn
  rw [Finset.sum_eq_single j]
  · simp
  · intro b _ hb; simp [hb]
  · simp

theorem smooth_mulVecFn (P : Arr) (r c : ℕ) : Smooth c r (mulVecFn P r c) := by
  intro i hi
  exact ⟨rowFn P c i, rowFn_contDiff P c i, fun x _ => by rw [mulVecFn_getD _ _ _ _ hi, rowFn_toVec]⟩

theorem D1_mulVecFn (P : Arr) (r c : ℕ) {x : List ℝ} (hx : x.length = c) {i j : ℕ} (hi : i < r)
    (hj : j < c) : D1 (mulVecFn P r c) x i j = P.at2 i j := by
  have := Smooth.D1_eq (G := mulVecFn P r c) (rowFn_contDiff P c i) (i := i)
    (fun x _ => by rw [mulVecFn_getD _ _ _ _ hi, rowFn_toVec]) hx ⟨j, hj⟩
  rw [this, rowFn_fderiv, rowFn_basis]

theorem D2_mulVecFn (P : Arr) (r c : ℕ) {x : List ℝ} (hx : x.length = c) {i a b : ℕ} (hi : i < r)
    (ha : a < c) : D2 (mulVecFn P r c) x i a b = 0 := by
  unfold D2
  have : (fun s => D1 (mulVecFn P r c) (x.set b s) i a) = fun _ => P.at2 i a := by
    funext s
    exact D1_mulVecFn P r c (by simpa using hx) hi ha
  rw [this]
  simp

end

end LRVB
