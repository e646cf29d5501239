import Verif.Lemmas.Ld
import Mathlib.LinearAlgebra.Matrix.PosDef
import Mathlib.Algebra.Order.Star.Real
import Mathlib.LinearAlgebra.Matrix.Block
import Mathlib.LinearAlgebra.Matrix.NonsingularInverse

namespace LRVB

open Finset

theorem cholEntry_lt (A : ℕ → ℕ → ℝ) {i j : ℕ} (h : j < i) :
    cholEntry A i j = (A i j - ∑ k ∈ range j, cholEntry A i k * cholEntry A j k) / cholEntry A j j := by
  rw [cholEntry, if_pos h, Fin.sum_univ_eq_sum_range (fun k => cholEntry A i k * cholEntry A j k)]

theorem cholEntry_diag (A : ℕ → ℕ → ℝ) (i : ℕ) :
    cholEntry A i i = Real.sqrt (cholPivot A i) := by
  rw [cholEntry, if_neg (lt_irrefl _), if_pos rfl, cholPivot]

theorem cholEntry_gt (A : ℕ → ℕ → ℝ) {i j : ℕ} (h : i < j) : cholEntry A i j = 0 := by
  rw [cholEntry, if_neg (by omega), if_neg (by omega)]

theorem cholPivot_eq (A : ℕ → ℕ → ℝ) (i : ℕ) :
    cholPivot A i = A i i - ∑ k ∈ range i, cholEntry A i k * cholEntry A i k := by
  rw [cholPivot, Fin.sum_univ_eq_sum_range (fun k => cholEntry A i k * cholEntry A i k)]

/-- The sum of products of rows of a lower triangular matrix stops at the diagonal. -/
theorem sum_lower {n j : ℕ} (f g : ℕ → ℝ) (hj : j < n) (hg : ∀ k, j < k → g k = 0) :
    ∑ k ∈ range n, f k * g k = ∑ k ∈ range j, f k * g k + f j * g j := by
  rw [← sum_range_succ]
  symm
  apply sum_subset
  · intro k hk; simp at hk ⊢; omega
  · intro k _ hk2
    rw [hg k (by simp at hk2; omega), mul_zero]

/-- When no pivot fails, the factor reproduces the lower triangle. -/
theorem chol_mul (A : ℕ → ℕ → ℝ) (n : ℕ) (hp : ∀ i < n, 0 < cholPivot A i) {i j : ℕ}
    (hj : j ≤ i) (hi : i < n) :
    ∑ k ∈ range n, cholEntry A i k * cholEntry A j k = A i j := by
  have hjn : j < n := by omega
  rw [sum_lower (fun k => cholEntry A i k) (fun k => cholEntry A j k) hjn
    (fun k hk => cholEntry_gt A hk)]
  have hd : 0 < cholEntry A j j := by
    rw [cholEntry_diag]; exact Real.sqrt_pos.mpr (hp j hjn)
  rcases Nat.lt_or_eq_of_le hj with h | h
  · have := cholEntry_lt A h
    rw [eq_div_iff hd.ne'] at this
    rw [this]; ring
  · subst h
    rw [cholEntry_diag, Real.mul_self_sqrt (hp j hjn).le, cholPivot_eq]; ring

/-- Uniqueness: if the lower triangle of `A` is that of `M Mᵀ` with `M` lower triangular with
positive diagonal then no pivot fails and the computed factor is `M`. -/
theorem chol_unique (A M : ℕ → ℕ → ℝ) (n : ℕ) (hlow : ∀ i k, i < k → M i k = 0)
    (hpos : ∀ i < n, 0 < M i i)
    (hA : ∀ i j, j ≤ i → i < n → A i j = ∑ k ∈ range n, M i k * M j k) :
    (∀ i < n, ∀ j, cholEntry A i j = M i j) ∧ ∀ i < n, 0 < cholPivot A i := by
  have key : ∀ i, i < n → ∀ j, cholEntry A i j = M i j := by
    intro i
    induction i using Nat.strong_induction_on with
    | _ i ihi =>
      intro hi
      have hlt : ∀ j, j < i → cholEntry A i j = M i j := by
        intro j
        induction j using Nat.strong_induction_on with
        | _ j ihj =>
          intro hji
          rw [cholEntry_lt A hji, ihi j hji (by omega) j, hA i j hji.le hi,
            sum_lower (fun k => M i k) (fun k => M j k) (by omega) (fun k hk => hlow j k hk)]
          have : ∑ k ∈ range j, cholEntry A i k * cholEntry A j k = ∑ k ∈ range j, M i k * M j k := by
            apply sum_congr rfl
            intro k hk
            have hk : k < j := by simpa using hk
            rw [ihj k hk (by omega), ihi j hji (by omega) k]
          rw [this, add_sub_cancel_left, mul_div_assoc, div_self (hpos j (by omega)).ne', mul_one]
      intro j
      rcases lt_trichotomy j i with h | h | h
      · exact hlt j h
      · subst h
        rw [cholEntry_diag, cholPivot_eq, hA j j le_rfl hi,
          sum_lower (fun k => M j k) (fun k => M j k) hi (fun k hk => hlow j k hk)]
        have : ∑ k ∈ range j, cholEntry A j k * cholEntry A j k = ∑ k ∈ range j, M j k * M j k := by
          apply sum_congr rfl
          intro k hk
          rw [hlt k (by simpa using hk)]
        rw [this, add_sub_cancel_left, Real.sqrt_mul_self (hpos j hi).le]
      · rw [cholEntry_gt A h, hlow i j h]
  refine ⟨key, fun i hi => ?_⟩
  have := key i hi i
  rw [cholEntry_diag] at this
  have h2 := hpos i hi
  rw [← this] at h2
  exact Real.sqrt_pos.mp h2

/-- The `n × n` matrix with entries `A i j`. -/
def toMat (n : ℕ) (A : ℕ → ℕ → ℝ) : Matrix (Fin n) (Fin n) ℝ := Matrix.of fun i j => A i j

theorem lower_isUnit (n : ℕ) (M : ℕ → ℕ → ℝ) (hlow : ∀ i k, i < k → M i k = 0)
    (hpos : ∀ i < n, 0 < M i i) : IsUnit (toMat n M) := by
  rw [Matrix.isUnit_iff_isUnit_det]
  have : (toMat n M).det = ∏ i : Fin n, M i i := by
    apply Matrix.det_of_isLowerTriangular
    intro i j hij
    exact hlow _ _ (by simpa using hij)
  rw [this]
  apply IsUnit.mk0
  exact prod_ne_zero_iff.mpr fun i _ => (hpos i i.2).ne'

theorem lower_posDef (n : ℕ) (M : ℕ → ℕ → ℝ) (hlow : ∀ i k, i < k → M i k = 0)
    (hpos : ∀ i < n, 0 < M i i) :
    (toMat n fun i j => ∑ k ∈ range n, M i k * M j k).PosDef := by
  have hu := lower_isUnit n M hlow hpos
  have : (toMat n fun i j => ∑ k ∈ range n, M i k * M j k) = toMat n M * (toMat n M).conjTranspose := by
    ext i j
    simp only [toMat, Matrix.mul_apply, Matrix.of_apply, Matrix.conjTranspose_apply, star_trivial]
    rw [Fin.sum_univ_eq_sum_range (fun k => M i k * M j k)]
  rw [this]
  apply Matrix.PosDef.mul_conjTranspose_self
  exact Matrix.vecMul_injective_iff_isUnit.mpr hu

theorem posDef_sum_pos {n : ℕ} {A : ℕ → ℕ → ℝ} (h : (toMat n A).PosDef) (v : ℕ → ℝ)
    {i0 : ℕ} (h0 : i0 < n) (hv : v i0 ≠ 0) :
    0 < ∑ i ∈ range n, ∑ j ∈ range n, v i * (A i j * v j) := by
  have := h.dotProduct_mulVec_pos (x := fun i : Fin n => v i)
    (fun hc => hv (congrFun hc ⟨i0, h0⟩))
  simp only [dotProduct, Matrix.mulVec, toMat, Matrix.of_apply, star_trivial, Pi.star_apply] at this
  rw [Fin.sum_univ_eq_sum_range (fun i => v i * ∑ j : Fin n, A i j * v j)] at this
  refine this.trans_eq ?_
  apply sum_congr rfl
  intro i _
  rw [Fin.sum_univ_eq_sum_range (fun j => A i j * v j), mul_sum]

theorem toMat_symm {n : ℕ} {A : ℕ → ℕ → ℝ} (h : (toMat n A).PosDef) {i j : ℕ} (hi : i < n) (hj : j < n) :
    A i j = A j i := by
  have := h.isHermitian
  have := congrFun (congrFun this ⟨j, hj⟩) ⟨i, hi⟩
  simpa [toMat, Matrix.conjTranspose] using this

/-- Positive definite matrices pass every pivot. -/
theorem posDef_pivots {n : ℕ} {A : ℕ → ℕ → ℝ} (h : (toMat n A).PosDef) :
    ∀ m < n, 0 < cholPivot A m := by
  intro m
  induction m using Nat.strong_induction_on with
  | _ m ih =>
    intro hm
    have hp : ∀ k < m, 0 < cholPivot A k := fun k hk => ih k hk (by omega)
    -- solve the triangular system
    have hu : IsUnit (toMat m (cholEntry A)) :=
      lower_isUnit m _ (fun i k hik => cholEntry_gt A hik) (fun i hi => by
        rw [cholEntry_diag]; exact Real.sqrt_pos.mpr (hp i hi))
    obtain ⟨y, hy⟩ := (Matrix.vecMul_surjective_iff_isUnit.mpr hu) (fun k : Fin m => cholEntry A m k)
    let v : ℕ → ℝ := fun i => if hi : i < m then - y ⟨i, hi⟩ else if i = m then 1 else 0
    have hvm : v m = 1 := by simp [v]
    have hv0 : ∀ i, m < i → v i = 0 := by
      intro i hi
      have h1 : ¬ i < m := by omega
      have h2 : i ≠ m := by omega
      simp [v, h1, h2]
    have hcol : ∀ k < m, ∑ i ∈ range (m + 1), v i * cholEntry A i k = 0 := by
      intro k hk
      rw [sum_range_succ, hvm, one_mul]
      have := congrFun hy ⟨k, hk⟩
      simp only [Matrix.vecMul, dotProduct, toMat, Matrix.of_apply] at this
      rw [← this, ← Fin.sum_univ_eq_sum_range (fun i => v i * cholEntry A i k), ← sum_add_distrib]
      apply sum_eq_zero
      intro i _
      have : v i = - y i := by simp [v]
      rw [this]; ring
    have hA : ∀ i ≤ m, ∀ j ≤ m, A i j = ∑ k ∈ range m, cholEntry A i k * cholEntry A j k +
        (if i = m ∧ j = m then cholPivot A m else 0) := by
      have hA1 : ∀ i ≤ m, ∀ j ≤ i, A i j = ∑ k ∈ range m, cholEntry A i k * cholEntry A j k +
        (if i = m ∧ j = m then cholPivot A m else 0) := by
        intro i hi j hj
        by_cases hjm : j = m
        · have : i = m := by omega
          subst this; subst hjm
          simp [cholPivot_eq]
        · have hjm' : j < m := by omega
          rw [sum_lower (fun k => cholEntry A i k) (fun k => cholEntry A j k) hjm'
            (fun k hk => cholEntry_gt A hk)]
          have hd : 0 < cholEntry A j j := by
            rw [cholEntry_diag]; exact Real.sqrt_pos.mpr (hp j hjm')
          rcases Nat.lt_or_eq_of_le hj with hlt | heq
          · have := cholEntry_lt A hlt
            rw [eq_div_iff hd.ne'] at this
            rw [this]; simp [hjm]
          · subst heq
            rw [cholEntry_diag, Real.mul_self_sqrt (hp j hjm').le, cholPivot_eq]; simp [hjm]
      intro i hi j hj
      rcases le_total j i with hji | hij
      · exact hA1 i hi j hji
      · rw [toMat_symm h (by omega) (by omega), hA1 j hj i hij]
        congr 1
        · exact sum_congr rfl fun k _ => mul_comm _ _
        · simp only [and_comm]
    have hpos := posDef_sum_pos h v hm (by rw [hvm]; exact one_ne_zero)
    have hred : ∑ i ∈ range n, ∑ j ∈ range n, v i * (A i j * v j) =
        ∑ i ∈ range (m + 1), ∑ j ∈ range (m + 1), v i * (A i j * v j) := by
      have hs : range (m + 1) ⊆ range n := by intro k hk; simp at hk ⊢; omega
      symm
      rw [← sum_subset hs]
      · apply sum_congr rfl
        intro i _
        apply sum_subset hs
        intro j _ hj
        rw [hv0 j (by simp at hj; omega)]; ring
      · intro i _ hi
        apply sum_eq_zero
        intro j _
        rw [hv0 i (by simp at hi; omega)]; ring
    rw [hred] at hpos
    have hquad : ∑ i ∈ range (m + 1), ∑ j ∈ range (m + 1), v i * (A i j * v j) = cholPivot A m := by
      have e1 : ∀ i ∈ range (m + 1), ∀ j ∈ range (m + 1), v i * (A i j * v j) =
          (∑ k ∈ range m, (v i * cholEntry A i k) * (v j * cholEntry A j k)) +
          (if i = m ∧ j = m then cholPivot A m else 0) := by
        intro i hi j hj
        rw [hA i (by simp at hi; omega) j (by simp at hj; omega)]
        have : ∑ k ∈ range m, (v i * cholEntry A i k) * (v j * cholEntry A j k) =
            v i * v j * ∑ k ∈ range m, cholEntry A i k * cholEntry A j k := by
          rw [mul_sum]; exact sum_congr rfl fun k _ => by ring
        rw [this]
        by_cases hc : i = m ∧ j = m
        · rw [if_pos hc, hc.1, hc.2, hvm]; ring
        · rw [if_neg hc]; ring
      rw [sum_congr rfl fun i hi => sum_congr rfl (e1 i hi)]
      simp only [sum_add_distrib]
      have z : ∑ i ∈ range (m + 1), ∑ j ∈ range (m + 1),
          ∑ k ∈ range m, (v i * cholEntry A i k) * (v j * cholEntry A j k) = 0 := by
        have : ∀ i ∈ range (m + 1), ∑ j ∈ range (m + 1),
          ∑ k ∈ range m, (v i * cholEntry A i k) * (v j * cholEntry A j k) = 0 := by
          intro i _
          rw [sum_comm]
          apply sum_eq_zero
          intro k hk
          rw [← mul_sum, hcol k (by simpa using hk), mul_zero]
        exact sum_eq_zero this
      rw [z, zero_add]
      rw [sum_eq_single m]
      · rw [sum_eq_single m]
        · simp
        · intro j _ hj; simp [hj]
        · intro hc; simp at hc
      · intro i _ hi; simp [hi]
      · intro hc; simp at hc
    rwa [hquad] at hpos

/-- Conversely, when all pivots are positive a symmetric matrix is positive definite. -/
theorem posDef_of_pivots {n : ℕ} {A : ℕ → ℕ → ℝ} (hs : ∀ i < n, ∀ j < n, A i j = A j i)
    (hp : ∀ m < n, 0 < cholPivot A m) : (toMat n A).PosDef := by
  have h := lower_posDef n (cholEntry A) (fun i k hik => cholEntry_gt A hik) (fun i hi => by
        rw [cholEntry_diag]; exact Real.sqrt_pos.mpr (hp i hi))
  have : toMat n A = toMat n fun i j => ∑ k ∈ range n, cholEntry A i k * cholEntry A j k := by
    ext ⟨i, hi⟩ ⟨j, hj⟩
    simp only [toMat, Matrix.of_apply]
    rcases le_total j i with hji | hij
    · rw [chol_mul A n hp hji hi]
    · rw [hs i hi j hj, ← chol_mul A n hp hij hj]
      exact sum_congr rfl fun k _ => mul_comm _ _
  rwa [this]

end LRVB
