import Verif.Lemmas.Terms4
import Mathlib.Analysis.Calculus.IteratedDeriv.Lemmas
import Mathlib.LinearAlgebra.Matrix.NonsingularInverse

/-! The terms of order `k` compute the `k`-th derivative of a path of solutions. -/

namespace LRVB

noncomputable section

open scoped ContDiff
open Classical Matrix

theorem toVec_ofFn {n : ℕ} (u : Fin n → ℝ) : toVec n (List.ofFn u) = u := by
  funext i
  simp [toVec, List.getD_eq_getElem?_getD]

theorem ofFn_toVec {n : ℕ} {x : List ℝ} (h : x.length = n) : List.ofFn (toVec n x) = x := by
  apply List.ext_getElem (by simp [h])
  intro k hk hk'
  simp [toVec, List.getD_eq_getElem?_getD, hk']

theorem etaVecs_ok (E : List EtaFun) (b : Base) (eta0 eps0 d : List ℝ) (v : ℕ → List ℝ) :
    ∀ (os : List ℕ) (s : ℕ), (∀ i ∈ jsFrom os s, ∃ f, E[i]? = some f ∧ f b eta0 eps0 d = .ok (v i)) →
      DTerm.etaVecs E b eta0 eps0 d os s = .ok ((jsFrom os s).map v) := by
  intro os
  induction os with
  | nil => intro s _; rfl
  | cons n os ih =>
    intro s h
    have h2 := ih (s + 1) (fun i hi => h i (List.mem_append_right _ hi))
    rw [DTerm.etaVecs, jsFrom, List.map_append, List.map_replicate]
    by_cases hn : n > 0
    · obtain ⟨f, hf, hv⟩ := h s (List.mem_append_left _ (by simp; omega))
      rw [if_pos hn, getIdx, hf]
      simp only [py_ok_bind, hv, h2]
    · obtain rfl : n = 0 := by omega
      simp only [gt_iff_lt, lt_irrefl, if_false, py_ok_bind, h2, List.replicate_zero]

theorem js_length (os : List ℕ) : (js os).length = os.sum := by
  have : ∀ (os : List ℕ) (s : ℕ), (jsFrom os s).length = os.sum := by
    intro os
    induction os with
    | nil => intro s; rfl
    | cons n os ih => intro s; simp [jsFrom, ih]
  exact this os 0

theorem sum_map_range {V : Type} [AddCommMonoid V] (f : ℕ → V) (k : ℕ) :
    ((List.range k).map f).sum = ∑ i ∈ Finset.range k, f i := by
  induction k with
  | zero => rfl
  | succ k ih => rw [List.range_succ, Finset.sum_range_succ, List.map_append, List.sum_append, ih]; simp

variable {n m : ℕ}

/-- Every entry of the array of functions computes the derivative of `g` that belongs to it, except for the values and
the first derivatives in the first argument, for which the base Hessian is used. -/
def ArrayOf (G : List (List DFun)) (g : (Fin n → ℝ) × (Fin m → ℝ) → (Fin n → ℝ)) : Prop :=
  ∀ (i j : ℕ) (row : List DFun) (f : DFun), G[i]? = some row → row[j]? = some f → 1 ≤ j ∨ 2 ≤ i → Computes f g i j

/-- `η` is a smooth curve of zeros of `g` through the base point, the second argument moving along
`d`; the base Hessian is the derivative of `g` in its first argument, and invertible. -/
structure Path (g : (Fin n → ℝ) × (Fin m → ℝ) → (Fin n → ℝ)) (b : Base) (d : List ℝ)
    (η : ℝ → Fin n → ℝ) : Prop where
  n_pos : 0 < n
  m_pos : 0 < m
  hin : b.inputVal0.length = n
  hhy : b.hyperVal0.length = m
  hd : d.length = m
  smooth : ContDiff ℝ ∞ η
  start : η 0 = toVec n b.inputVal0
  zero : ∀ᶠ t in nhds (0 : ℝ), g (η t, toVec m b.hyperVal0 + t • toVec m d) = 0
  shape : b.hess0.shape = [n, n]
  hess : ∀ u, toMatrix n n b.hess0 *ᵥ u =
    fderiv ℝ g (toVec n b.inputVal0, toVec m b.hyperVal0) (u, 0)
  det : (toMatrix n n b.hess0).det ≠ 0

/-- The curve in both arguments. -/
def curve (b : Base) (d : List ℝ) (η : ℝ → Fin n → ℝ) (t : ℝ) : (Fin n → ℝ) × (Fin m → ℝ) :=
  (η t, toVec m b.hyperVal0 + t • toVec m d)

/-- The direction of the `i+1`-th derivative of the curve. -/
def etaDir (η : ℝ → Fin n → ℝ) (i : ℕ) (t : ℝ) : (Fin n → ℝ) × (Fin m → ℝ) :=
  (iteratedDeriv (i + 1) η t, 0)

/-- Entry `j` of the value of a term at time `t`. -/
def cstat (g : (Fin n → ℝ) × (Fin m → ℝ) → (Fin n → ℝ)) (b : Base) (d : List ℝ)
    (η : ℝ → Fin n → ℝ) (j : Fin n) (t : ℝ) (T : DTerm) : ℝ :=
  termVal g (etaDir η · t) ((0 : Fin n → ℝ), toVec m d) T.etaOrders T.epsOrder (curve b d η t) j

/-- 1 when the last order is not 0. -/
def topOf (os : List ℕ) : ℝ := if os.getLast? = some 0 then 0 else 1

/-- 1 for the term with the highest derivative. -/
def ctop (T : DTerm) : ℝ := topOf T.etaOrders

theorem iteratedDeriv_hasDerivAt {V : Type} [NormedAddCommGroup V] [NormedSpace ℝ V] {η : ℝ → V}
    (h : ContDiff ℝ ∞ η) (k : ℕ) (t : ℝ) :
    HasDerivAt (iteratedDeriv k η) (iteratedDeriv (k + 1) η t) t := by
  rw [iteratedDeriv_succ]
  have hd : Differentiable ℝ (iteratedDeriv k η) :=
    h.differentiable_iteratedDeriv k (WithTop.coe_lt_coe.mpr (ENat.coe_lt_top k))
  exact (hd t).hasDerivAt

section

variable {g : (Fin n → ℝ) × (Fin m → ℝ) → (Fin n → ℝ)} {b : Base} {d : List ℝ}
  {η : ℝ → Fin n → ℝ}

theorem curve_hasDerivAt (h : ContDiff ℝ ∞ η) (b : Base) (d : List ℝ) (t : ℝ) :
    HasDerivAt (curve (m := m) b d η) (etaDir η 0 t + (0, toVec m d)) t := by
  have h1 := iteratedDeriv_hasDerivAt h 0 t
  rw [iteratedDeriv_zero] at h1
  have h2 : HasDerivAt (fun t : ℝ => toVec m b.hyperVal0 + t • toVec m d) (toVec m d) t := by
    simpa using ((hasDerivAt_id t).smul_const (toVec m d)).const_add (toVec m b.hyperVal0)
  have := h1.prodMk h2
  refine this.congr_deriv ?_
  simp [etaDir]

theorem etaDir_hasDerivAt (h : ContDiff ℝ ∞ η) (i : ℕ) (t : ℝ) :
    HasDerivAt (etaDir (m := m) η i) (etaDir η (i + 1) t) t :=
  (iteratedDeriv_hasDerivAt h (i + 1) t).prodMk (hasDerivAt_const t 0)

theorem curve_contDiff (h : ContDiff ℝ ∞ η) (b : Base) (d : List ℝ) :
    ContDiff ℝ ∞ (curve (m := m) b d η) :=
  h.prodMk (contDiff_const.add (contDiff_id.smul contDiff_const))

/-- The derivative of the value of a term is the value of the terms of its derivative. -/
theorem cstat_hasDerivAt (hg : ContDiff ℝ ∞ g) (h : ContDiff ℝ ∞ η) (b : Base) (d : List ℝ)
    (next : EtaFun) (j : Fin n) (t : ℝ) (T : DTerm) :
    HasDerivAt (fun s => T.prefactor * cstat g b d η j s T)
      (wsum (cstat g b d η j t) (T.derivList next)) t := by
  have h1 := hasDerivAt_pi.mp (termVal_hasDerivAt hg (curve_hasDerivAt (m := m) h b d t)
    (fun i => etaDir_hasDerivAt h i t) T.etaOrders T.epsOrder) j
  refine (h1.const_mul T.prefactor).congr_deriv ?_
  have h2 : ∀ l : List ℕ, wsum (cstat g b d η j t)
      ((l.filter fun i => T.etaOrders.getD i 0 > 0).map fun i =>
        DTerm.mk' T.epsOrder (DTerm.bump (T.etaOrders ++ [0]) i)
          (T.prefactor * T.etaOrders.getD i 0) (T.evalEta ++ [next]) T.evalG) =
      T.prefactor * (l.map fun i => (T.etaOrders.getD i 0 • termVal g (etaDir η · t)
        ((0 : Fin n → ℝ), toVec m d) (DTerm.bump (T.etaOrders ++ [0]) i) T.epsOrder
          (curve b d η t)) j).sum := by
    intro l
    induction l with
    | nil => simp [wsum]
    | cons i l ih =>
      rw [List.map_cons, List.sum_cons, mul_add, ← ih]
      by_cases hi : T.etaOrders.getD i 0 > 0
      · rw [List.filter_cons_of_pos (by simpa using hi), List.map_cons, wsum_cons]
        congr 1
        simp only [Pi.smul_apply, nsmul_eq_mul, ← mul_assoc]
        rfl
      · rw [List.filter_cons_of_neg (by simpa using hi)]
        have : T.etaOrders.getD i 0 = 0 := by omega
        rw [this]
        simp
  rw [DTerm.derivList, wsum_cons, wsum_cons, h2]
  rw [sum_map_range]
  simp only [Pi.add_apply, Finset.sum_apply, mul_add, add_assoc]
  rfl

theorem wsum_flatMap (c : DTerm → ℝ) (f : DTerm → List DTerm) (ts : List DTerm) :
    wsum c (ts.flatMap f) = (ts.map fun T => wsum c (f T)).sum := by
  induction ts with
  | nil => rfl
  | cons T ts ih => rw [List.flatMap_cons, wsum_append, ih, List.map_cons, List.sum_cons]

theorem wsum_hasDerivAt (hg : ContDiff ℝ ∞ g) (h : ContDiff ℝ ∞ η) (b : Base) (d : List ℝ)
    (next : EtaFun) (j : Fin n) (t : ℝ) {ts : List DTerm} :
    HasDerivAt (fun s => wsum (cstat g b d η j s) ts)
      (wsum (cstat g b d η j t) (ts.flatMap (·.derivList next))) t := by
  induction ts with
  | nil => exact hasDerivAt_const t 0
  | cons T ts ih =>
    rw [List.flatMap_cons, wsum_append]
    simp only [wsum_cons]
    exact (cstat_hasDerivAt hg h b d next j t T).add ih

/-- The term with the highest derivative. -/
theorem top_of_order {k : ℕ} {T : DTerm} (hwf : T.WF) (ho : T.order = k) (hk : 0 < k)
    (h : T.etaOrders.getLast? ≠ some 0) :
    T.epsOrder = 0 ∧ T.etaOrders.getD (k - 1) 0 = 1 ∧ ∀ i, i ≠ k - 1 → T.etaOrders.getD i 0 = 0 := by
  have hl : T.etaOrders.length = k := hwf.length.trans ho
  have hne : T.etaOrders.getD (k - 1) 0 ≠ 0 := by
    intro h0
    apply h
    rw [List.getLast?_eq_getElem?, hl]
    rw [List.getD_eq_getElem?_getD] at h0
    have : k - 1 < T.etaOrders.length := by omega
    simp [this] at h0 ⊢
    exact h0
  have ho' : T.epsOrder + ∑ i ∈ Finset.range T.etaOrders.length, T.etaOrders.getD i 0 * (i + 1) = k := by
    rw [← totalOrder_eq]; exact ho
  rw [hl, ← Finset.add_sum_erase _ _ (Finset.mem_range.mpr (show k - 1 < k by omega))] at ho'
  have e : k - 1 + 1 = k := by omega
  rw [e] at ho'
  have h1 : T.etaOrders.getD (k - 1) 0 = 1 := by
    by_contra hc
    have h2 : 2 ≤ T.etaOrders.getD (k - 1) 0 := by omega
    have := Nat.mul_le_mul_right k h2
    omega
  rw [h1, one_mul] at ho'
  refine ⟨by omega, h1, fun i hi => ?_⟩
  by_cases hik : i < k
  · have h0 : ∑ i ∈ (Finset.range k).erase (k - 1), T.etaOrders.getD i 0 * (i + 1) = 0 := by omega
    have := (Finset.sum_eq_zero_iff.mp h0) i (Finset.mem_erase.mpr ⟨hi, Finset.mem_range.mpr hik⟩)
    simpa using this
  · rw [List.getD_eq_getElem?_getD, List.getElem?_eq_none (by omega)]; rfl

theorem getLast?_getD {os : List ℕ} {k : ℕ} (hl : os.length = k + 1) :
    os.getLast? = some (os.getD k 0) := by
  rw [List.getLast?_eq_getElem?, hl, List.getD_eq_getElem?_getD]
  have : k < os.length := by omega
  simp [this]

/-- The total weight of the highest derivative does not change. -/
theorem wsum_ctop {k : ℕ} {T : DTerm} (hwf : T.WF) (ho : T.order = k) (hk : 0 < k) (next : EtaFun) :
    wsum ctop (T.derivList next) = T.prefactor * ctop T := by
  have hl : T.etaOrders.length = k := hwf.length.trans ho
  have hl' : (T.etaOrders ++ [0]).length = k + 1 := by simp [hl]
  rw [DTerm.derivList, wsum_cons, wsum_cons]
  have h1 : ctop (DTerm.mk' (T.epsOrder + 1) (T.etaOrders ++ [0]) T.prefactor (T.evalEta ++ [next])
      T.evalG).erase = 0 := by
    simp [ctop, topOf, DTerm.mk', DTerm.erase]
  have h2 : ctop (DTerm.mk' T.epsOrder ((T.etaOrders ++ [0]).set 0 ((T.etaOrders ++ [0]).getD 0 0 + 1))
      T.prefactor (T.evalEta ++ [next]) T.evalG).erase = 0 := by
    change topOf ((T.etaOrders ++ [0]).set 0 ((T.etaOrders ++ [0]).getD 0 0 + 1)) = 0
    rw [topOf, if_pos]
    rw [getLast?_getD (k := k) (by simp [hl]), getD_set _ _ _ _ (by simp), if_neg (by omega),
      getD_append_zero, List.getD_eq_getElem?_getD, List.getElem?_eq_none (by omega)]
    rfl
  rw [h1, h2, mul_zero, mul_zero, zero_add, zero_add]
  have h3 : ∀ l : List ℕ, (∀ i ∈ l, i < k) → l.Nodup → wsum ctop
      ((l.filter fun i => T.etaOrders.getD i 0 > 0).map fun i =>
        DTerm.mk' T.epsOrder (DTerm.bump (T.etaOrders ++ [0]) i)
          (T.prefactor * T.etaOrders.getD i 0) (T.evalEta ++ [next]) T.evalG) =
      if k - 1 ∈ l then T.prefactor * T.etaOrders.getD (k - 1) 0 else 0 := by
    intro l
    induction l with
    | nil => intro _ _; simp [wsum]
    | cons i l ih =>
      intro hlt hnd
      have ih := ih (fun i hi => hlt i (List.mem_cons_of_mem _ hi)) (List.nodup_cons.mp hnd).2
      have hik := hlt i (List.mem_cons_self ..)
      have hnot := (List.nodup_cons.mp hnd).1
      have hb : ctop (DTerm.mk' T.epsOrder (DTerm.bump (T.etaOrders ++ [0]) i)
          (T.prefactor * T.etaOrders.getD i 0) (T.evalEta ++ [next]) T.evalG).erase =
          if i = k - 1 then 1 else 0 := by
        change topOf (DTerm.bump (T.etaOrders ++ [0]) i) = _
        rw [topOf, getLast?_getD (k := k) (by rw [DTerm.bump_length]; simp [hl]),
          getD_bump (by simp [hl, hik]), getD_append_zero, getD_append_zero, getD_append_zero]
        by_cases h : i = k - 1
        · rw [if_pos (by omega : k = i + 1), if_neg (by simp), if_pos h]
        · rw [if_neg (by omega : ¬ k = i + 1), if_neg (by omega : ¬ k = i), if_neg h, if_pos]
          rw [List.getD_eq_getElem?_getD, List.getElem?_eq_none (by omega)]; rfl
      by_cases hi : T.etaOrders.getD i 0 > 0
      · rw [List.filter_cons_of_pos (by simpa using hi), List.map_cons, wsum_cons, ih, hb]
        by_cases h : i = k - 1
        · subst h
          rw [if_pos rfl, if_neg hnot, if_pos (List.mem_cons_self ..), mul_one, add_zero]; rfl
        · rw [if_neg h, mul_zero, zero_add]
          simp [List.mem_cons, Ne.symm h]
      · rw [List.filter_cons_of_neg (by simpa using hi), ih]
        have h0 : T.etaOrders.getD i 0 = 0 := by omega
        by_cases h : i = k - 1
        · subst h
          rw [if_neg hnot, if_pos (List.mem_cons_self ..), h0]; simp
        · simp [List.mem_cons, Ne.symm h]
  rw [hl, h3 _ (fun i hi => List.mem_range.mp hi) List.nodup_range,
    if_pos (List.mem_range.mpr (by omega))]
  rw [ctop, topOf]
  by_cases ht : T.etaOrders.getLast? = some 0
  · rw [if_pos ht]
    rw [getLast?_getD (k := k - 1) (by omega)] at ht
    rw [Option.some.inj ht]; simp
  · rw [if_neg ht, (top_of_order hwf ho hk ht).2.1]; simp

end

end

end LRVB
