import Verif.Lemmas.Deriv2
import Verif.Props.Simplex

/-! Derivatives of the simplex transform. -/

namespace LRVB

open Flt

noncomputable section

/-- Simplex coordinates of one free vector. -/
def softVec (c : ℕ) (y : List ℝ) : List ℝ := (simplexMat 1 c y).data

/-- The free vector with a leading zero. -/
def aug (y : List ℝ) (j : ℕ) : ℝ := if j = 0 then 0 else y.getD (j - 1) 0

/-- Simplex coordinate `j`. -/
def softZ (c : ℕ) (y : List ℝ) (j : ℕ) : ℝ :=
  Real.exp (aug y j) / ∑ k ∈ Finset.range c, Real.exp (aug y k)

end

theorem softVec_length (c : ℕ) (y : List ℝ) : (softVec c y).length = c := by
  simp [softVec, simplexMat]

theorem softVec_getD {c : ℕ} (y : List ℝ) {j : ℕ} (hj : j < c) :
    (softVec c y).getD j 0 = softZ c y j := by
  have h1 : (softVec c y).getD j 0 = (simplexMat 1 c y).at2 0 j := by
    simp [softVec, Arr.at2]
  rw [h1, simplexMat_soft (by omega) hj]
  have : ∀ k, augment ⟨[1, c - 1], y⟩ 0 k = aug y k := by
    intro k; simp [augment, aug, Arr.at2]
  simp only [this, softZ]

theorem soft_sum_pos {c j : ℕ} (y : List ℝ) (hj : j < c) :
    0 < ∑ k ∈ Finset.range c, Real.exp (aug y k) :=
  Finset.sum_pos (fun _ _ => Real.exp_pos _) ⟨j, by simpa using hj⟩

theorem simplexMat_blockG {r c : ℕ} {x : List ℝ} (hx : x.length = r * (c - 1)) :
    (simplexMat r c x).data = blockG (softVec c) r (c - 1) x := by
  have hx' : x.length = (c - 1) * r := by rw [hx, Nat.mul_comm]
  unfold blockG blocks
  rw [List.flatMap_map]
  simp only [simplexMat, Arr.ofFn2]
  apply List.flatMap_congr
  intro i hi
  have hi : i < r := by simpa using hi
  simp only [softVec, simplexMat, Arr.ofFn2]
  simp only [List.range_one, List.flatMap_cons, List.flatMap_nil, List.append_nil]
  apply List.map_congr_left
  intro j hj
  have hj : j < c := by simpa using hj
  have : ∀ k < c, augment ⟨[r, c - 1], x⟩ i k =
      augment ⟨[1, c - 1], Leaf.slice x ((c - 1) * i) (c - 1)⟩ 0 k := by
    intro k hk
    unfold augment
    by_cases h : k = 0
    · simp [h]
    · simp only [h, if_false, Arr.at2]
      simp only [List.getD_cons_succ, List.getD_cons_zero, Nat.zero_mul, Nat.zero_add]
      rw [slice_getD (by omega), Nat.mul_comm]
  rw [this j hj, Finset.sum_congr rfl fun k hk => by rw [this k (by simpa using hk)]]

theorem constrainSimplexVector_ok {c : ℕ} (hc : 0 < c) {y : List ℝ} (hy : y.length = c - 1) :
    constrainSimplexVector y = .ok (softVec c y) := by
  unfold constrainSimplexVector
  rw [constrainSimplexMatrix_ok, py_ok_bind, hy]
  rw [show c - 1 + 1 = c by omega]
  rfl

theorem aug_set {y : List ℝ} {b : ℕ} (hb : b < y.length) (s : ℝ) (j : ℕ) :
    aug (y.set b s) j = if j = b + 1 then s else aug y j := by
  unfold aug
  by_cases h0 : j = 0
  · simp [h0]
  · by_cases h1 : j = b + 1
    · subst h1; simp [List.getD_eq_getElem?_getD, hb]
    · have : b ≠ j - 1 := by omega
      simp [h0, h1, List.getD_eq_getElem?_getD, List.getElem?_set_ne this]

theorem aug_self {y : List ℝ} {b : ℕ} : aug y (b + 1) = y.getD b 0 := by simp [aug]

theorem set_getD_self (y : List ℝ) (b : ℕ) : y.set b (y.getD b 0) = y := by
  apply List.ext_getElem?
  intro i
  rw [List.getElem?_set]
  by_cases h1 : b = i
  · subst h1
    by_cases h2 : b < y.length
    · simp [List.getD_eq_getElem?_getD, h2]
    · simp [h2]
  · simp [h1]

/-- First derivative of the simplex coordinates. -/
theorem softZ_hasDerivAt {c : ℕ} {y : List ℝ} (hy : y.length = c - 1) {j b : ℕ} (hj : j < c)
    (hb : b < c - 1) :
    HasDerivAt (fun s => softZ c (y.set b s) j)
      (softZ c y j * ((if j = b + 1 then 1 else 0) - softZ c y (b + 1))) (y.getD b 0) := by
  have hbl : b < y.length := by omega
  have hE : ∀ k, HasDerivAt (fun s => Real.exp (aug (y.set b s) k))
      (if k = b + 1 then Real.exp (aug y k) else 0) (y.getD b 0) := by
    intro k
    simp only [aug_set hbl]
    by_cases h : k = b + 1
    · subst h
      simp only [if_true, aug_self]
      exact Real.hasDerivAt_exp _
    · simp only [h, if_false]
      exact hasDerivAt_const _ _
  have hself := set_getD_self y b
  have hS : HasDerivAt (fun s => ∑ k ∈ Finset.range c, Real.exp (aug (y.set b s) k))
      (Real.exp (aug y (b + 1))) (y.getD b 0) := by
    have := HasDerivAt.fun_sum (u := Finset.range c) (fun k _ => hE k)
    rwa [Finset.sum_ite_eq' (Finset.range c) (b + 1), if_pos (by simp; omega)] at this
  have hpos := soft_sum_pos y hj
  have hd := (hE j).div hS (by rw [hself]; exact hpos.ne')
  unfold softZ
  refine hd.congr_deriv ?_
  rw [hself]
  split_ifs with h
  · field_simp
  · field_simp
    ring

theorem softVec_D1 {c : ℕ} {y : List ℝ} (hy : y.length = c - 1) {j b : ℕ} (hj : j < c)
    (hb : b < c - 1) :
    D1 (softVec c) y j b = softZ c y j * ((if j = b + 1 then 1 else 0) - softZ c y (b + 1)) := by
  unfold D1
  simp only [softVec_getD _ hj]
  exact (softZ_hasDerivAt hy hj hb).deriv

theorem softVec_D2 {c : ℕ} {y : List ℝ} (hy : y.length = c - 1) {j a b : ℕ} (hj : j < c)
    (ha : a < c - 1) (hb : b < c - 1) :
    D2 (softVec c) y j a b = softZ c y j * ((if j = a + 1 ∧ j = b + 1 then 1 else 0)
      - (if j = b + 1 then softZ c y (a + 1) else 0) - (if j = a + 1 then softZ c y (b + 1) else 0)
      + 2 * (softZ c y (a + 1) * softZ c y (b + 1)) - (if a = b then softZ c y (a + 1) else 0)) := by
  unfold D2
  have : ∀ s, D1 (softVec c) (y.set b s) j a =
      softZ c (y.set b s) j * ((if j = a + 1 then 1 else 0) - softZ c (y.set b s) (a + 1)) :=
    fun s => softVec_D1 (by simpa using hy) hj ha
  simp only [this]
  have h1 := softZ_hasDerivAt hy hj hb
  have h2 := softZ_hasDerivAt hy (j := a + 1) (by omega) hb
  have hself := set_getD_self y b
  have h3 := h1.mul ((hasDerivAt_const (y.getD b 0) (if j = a + 1 then (1 : ℝ) else 0)).sub h2)
  have h4 := h3.deriv
  refine Eq.trans ?_ (h4.trans ?_)
  · rfl
  · simp only [hself, Pi.sub_apply]
    by_cases e1 : j = a + 1 <;> by_cases e2 : j = b + 1
    · have : a = b := by omega
      simp [e1, this]; ring
    · have : ¬ a = b := by omega
      simp [e1, this]; ring
    · have : ¬ a = b := by omega
      simp [e2, this]
      have h' : ¬ b = a := by omega
      simp [h']; ring
    · by_cases e3 : a = b
      · simp [e2, e3]; ring
      · simp [e1, e2, e3]; ring

theorem smooth_softVec (c : ℕ) : Smooth (c - 1) c (softVec c) := by
  intro j hj
  let A : (Fin (c - 1) → ℝ) → ℕ → ℝ := fun v k =>
    if k = 0 then 0 else if h : k - 1 < c - 1 then v ⟨k - 1, h⟩ else 0
  have hA : ∀ k, ContDiff ℝ 2 (fun v => A v k) := by
    intro k
    by_cases h0 : k = 0
    · simp only [A, h0, if_true]; exact contDiff_const
    · by_cases h : k - 1 < c - 1
      · simp only [A, h0, if_false, h, dite_true]; exact contDiff_apply ℝ ℝ _
      · simp only [A, h0, if_false, h, dite_false]; exact contDiff_const
  refine ⟨fun v => Real.exp (A v j) / ∑ k ∈ Finset.range c, Real.exp (A v k), ?_, ?_⟩
  · refine (Real.contDiff_exp.comp (hA j)).div
      (ContDiff.sum fun k _ => Real.contDiff_exp.comp (hA k)) ?_
    intro v
    exact (Finset.sum_pos (fun _ _ => Real.exp_pos _) ⟨j, by simpa using hj⟩).ne'
  · intro y hy
    rw [softVec_getD _ hj, softZ]
    have : ∀ k < c, aug y k = A (toVec (c - 1) y) k := by
      intro k hk
      simp only [aug, A]
      split_ifs with h0 h
      · rfl
      · rfl
      · omega
    rw [this j hj, Finset.sum_congr rfl fun k hk => by rw [this k (by simpa using hk)]]

/-! ### The closed forms in the code -/

theorem grad_fold (z : List ℝ) (n : ℕ) (f : ℕ → ℕ → ℝ) (a b : ℕ) :
    (List.range' 1 n).foldl
      (fun jac k => fun a b => if a = k ∧ b = k - 1 then jac a b + z.getD k 0 else jac a b) f a b =
      f a b + if a = b + 1 ∧ a ≤ n then z.getD a 0 else 0 := by
  induction n with
  | zero =>
    have : ¬ (a = b + 1 ∧ a ≤ 0) := by omega
    rw [if_neg this]; simp
  | succ n ih =>
    rw [List.range'_1_concat, List.foldl_append]
    simp only [List.foldl_cons, List.foldl_nil]
    rw [ih]
    by_cases h : a = 1 + n ∧ b = 1 + n - 1
    · obtain ⟨rfl, rfl⟩ := h
      have h1 : ¬ (1 + n ≤ n) := by omega
      have h2 : 1 + n = 1 + n - 1 + 1 := by omega
      have h3 : 1 + n ≤ n + 1 := by omega
      rw [if_pos ⟨rfl, rfl⟩, if_neg (fun hc => h1 hc.2), if_pos ⟨h2, h3⟩]; ring
    · rw [if_neg h]
      have : (a = b + 1 ∧ a ≤ n) ↔ (a = b + 1 ∧ a ≤ n + 1) := by omega
      simp only [this]

theorem constrainGradFromMoment_eq (z : List ℝ) {a b : ℕ} (ha : a < z.length) :
    constrainGradFromMoment z a b =
      z.getD a 0 * ((if a = b + 1 then 1 else 0) - z.getD (b + 1) 0) := by
  unfold constrainGradFromMoment
  rw [grad_fold]
  by_cases h : a = b + 1
  · rw [if_pos ⟨h, by omega⟩, if_pos h]; ring
  · rw [if_neg (fun hc => h hc.1), if_neg h]; ring

/-- The inner loop of the Hessian: adds `w j` at `[k, j-1, j-1]`. -/
theorem addAt_fold (n k : ℕ) (w : ℕ → ℝ) (f : ℕ → ℕ → ℕ → ℝ) (a b c : ℕ) :
    (List.range' 1 n).foldl (fun h j => addAt h k (j - 1) (j - 1) (w j)) f a b c =
      f a b c + if a = k ∧ b = c ∧ b < n then w (b + 1) else 0 := by
  induction n with
  | zero => simp
  | succ n ih =>
    rw [List.range'_1_concat, List.foldl_append]
    simp only [List.foldl_cons, List.foldl_nil]
    unfold addAt at *
    rw [ih]
    by_cases h : a = k ∧ b = 1 + n - 1 ∧ c = 1 + n - 1
    · have h1 : a = k ∧ b = c ∧ b < n + 1 := by omega
      have h2 : ¬ (a = k ∧ b = c ∧ b < n) := by omega
      rw [if_pos h, if_neg h2, if_pos h1]
      have : 1 + n = b + 1 := by omega
      rw [this]; ring
    · have : (a = k ∧ b = c ∧ b < n) ↔ (a = k ∧ b = c ∧ b < n + 1) := by omega
      rw [if_neg h]
      simp only [this]

theorem hessStep_eq (z : List ℝ) (h : ℕ → ℕ → ℕ → ℝ) (k a b c : ℕ) :
    hessStep z h k a b c =
      if a = k then
        (h a b c + (if b = k - 1 then -z.getD (c + 1) 0 else 0)
          + (if c = k - 1 then -z.getD (b + 1) 0 else 0)
          + (if b = c ∧ b < z.length - 1 then (if b + 1 = k then 1 - z.getD (b + 1) 0 else -z.getD (b + 1) 0)
              else 0)) * z.getD k 0
      else h a b c := by
  unfold hessStep scaleAt
  simp only
  have hf : (fun (h : ℕ → ℕ → ℕ → ℝ) j => if j = k then addAt h k (j - 1) (j - 1) (1 - z.getD j 0)
      else addAt h k (j - 1) (j - 1) (-z.getD j 0)) =
      fun h j => addAt h k (j - 1) (j - 1) (if j = k then 1 - z.getD j 0 else -z.getD j 0) := by
    funext h j; split_ifs <;> rfl
  rw [hf, addAt_fold]
  by_cases ha : a = k
  · simp only [ha, if_true, true_and]
    congr 1
    split_ifs <;> ring
  · simp [ha]

theorem hessFold_eq (z : List ℝ) (n : ℕ) (h : ℕ → ℕ → ℕ → ℝ) (a b c : ℕ) :
    (List.range' 1 n).foldl (hessStep z) h a b c =
      if 1 ≤ a ∧ a ≤ n then hessStep z h a a b c else h a b c := by
  induction n with
  | zero =>
    have : ¬ (1 ≤ a ∧ a ≤ 0) := by omega
    rw [if_neg this]; simp
  | succ n ih =>
    rw [List.range'_1_concat, List.foldl_append]
    simp only [List.foldl_cons, List.foldl_nil]
    rw [hessStep_eq]
    by_cases ha : a = 1 + n
    · subst ha
      have h1 : ¬ (1 ≤ 1 + n ∧ 1 + n ≤ n) := by omega
      have h2 : 1 ≤ 1 + n ∧ 1 + n ≤ n + 1 := by omega
      rw [if_pos rfl, ih, if_neg h1, if_pos h2, hessStep_eq, if_pos rfl]
    · rw [if_neg ha, ih]
      have : (1 ≤ a ∧ a ≤ n) ↔ (1 ≤ a ∧ a ≤ n + 1) := by omega
      simp only [this]

theorem constrainHessFromMoment_eq (z : List ℝ) {k a b : ℕ} (hk : k < z.length)
    (ha : a < z.length - 1) :
    constrainHessFromMoment z k a b = z.getD k 0 * ((if k = a + 1 ∧ k = b + 1 then 1 else 0)
      - (if k = b + 1 then z.getD (a + 1) 0 else 0) - (if k = a + 1 then z.getD (b + 1) 0 else 0)
      + 2 * (z.getD (a + 1) 0 * z.getD (b + 1) 0) - (if a = b then z.getD (a + 1) 0 else 0)) := by
  unfold constrainHessFromMoment
  rw [hessFold_eq]
  by_cases h0 : k = 0
  · subst h0
    rw [if_neg (by omega), scaleAt, if_pos rfl, addAt_fold]
    have h1 : ¬ 0 = a + 1 := by omega
    have h2 : ¬ 0 = b + 1 := by omega
    simp only [true_and, ha, and_true, h1, h2, false_and, if_false]
    split_ifs <;> ring
  · rw [if_pos ⟨by omega, by omega⟩, hessStep_eq, if_pos rfl, scaleAt, if_neg h0, addAt_fold]
    have e1 : (a = k - 1) ↔ k = a + 1 := by omega
    have e2 : (b = k - 1) ↔ k = b + 1 := by omega
    have e3 : (a + 1 = k) ↔ k = a + 1 := by omega
    simp only [h0, false_and, if_false, add_zero, ha, and_true, e1, e2, e3]
    by_cases f1 : k = a + 1 <;> by_cases f2 : k = b + 1
    · have : a = b := by omega
      simp [f1, this]; ring
    · have : ¬ a = b := by omega
      simp [f1, this]; ring
    · have : ¬ a = b := by omega
      have h' : ¬ b = a := by omega
      simp [f2, this, h']; ring
    · by_cases f3 : a = b
      · simp [f2, f3]; ring
      · simp [f1, f2, f3]; ring

end LRVB
