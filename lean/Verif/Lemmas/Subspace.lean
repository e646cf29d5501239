import Verif.Spec.Leaf
import Verif.Lemmas.Leaf2
import Mathlib.LinearAlgebra.Matrix.Trace
import Mathlib.Analysis.Matrix.Spectrum

namespace LRVB

open Matrix

section Proj

variable {r d : ℕ} {X : Matrix (Fin r) (Fin d) ℝ}

theorem projPerp_ok (h : (X * Xᵀ).det ≠ 0) : projPerp X = .ok (1 - Xᵀ * ((X * Xᵀ)⁻¹ * X)) := by
  rw [projPerp, if_neg h]

theorem gram_symm_inv : ((X * Xᵀ)⁻¹)ᵀ = (X * Xᵀ)⁻¹ := by
  rw [Matrix.transpose_nonsing_inv]; simp

theorem perp_symm : (1 - Xᵀ * ((X * Xᵀ)⁻¹ * X)).IsSymm := by
  unfold Matrix.IsSymm
  simp only [Matrix.transpose_sub, Matrix.transpose_one, Matrix.transpose_mul, gram_symm_inv,
    Matrix.transpose_transpose, Matrix.mul_assoc]

theorem mul_perp (h : (X * Xᵀ).det ≠ 0) : X * (1 - Xᵀ * ((X * Xᵀ)⁻¹ * X)) = 0 := by
  rw [Matrix.mul_sub, Matrix.mul_one, ← Matrix.mul_assoc, ← Matrix.mul_assoc,
    Matrix.mul_nonsing_inv _ (Ne.isUnit h), Matrix.one_mul, sub_self]

theorem perp_idem (h : (X * Xᵀ).det ≠ 0) :
    (1 - Xᵀ * ((X * Xᵀ)⁻¹ * X)) * (1 - Xᵀ * ((X * Xᵀ)⁻¹ * X)) = 1 - Xᵀ * ((X * Xᵀ)⁻¹ * X) := by
  conv_lhs => rw [Matrix.sub_mul]
  rw [Matrix.mul_assoc, Matrix.mul_assoc, mul_perp h]
  simp

theorem perp_trace (h : (X * Xᵀ).det ≠ 0) :
    (1 - Xᵀ * ((X * Xᵀ)⁻¹ * X)).trace = (d : ℝ) - r := by
  rw [Matrix.trace_sub, Matrix.trace_mul_comm, Matrix.mul_assoc,
    Matrix.nonsing_inv_mul _ (Ne.isUnit h)]
  simp

variable {P V : Matrix (Fin d) (Fin d) ℝ} {w : Fin d → ℝ}

theorem IsEigh.mul_transpose (h : IsEigh P w V) : V * Vᵀ = 1 :=
  mul_eq_one_comm.mp h.orthonormal

theorem IsEigh.eq (h : IsEigh P w V) : P = V * diagonal w * Vᵀ := by
  rw [← h.decomposition, Matrix.mul_assoc, h.mul_transpose, Matrix.mul_one]

theorem IsEigh.diag (h : IsEigh P w V) : diagonal w = Vᵀ * P * V := by
  rw [Matrix.mul_assoc, h.decomposition, ← Matrix.mul_assoc, h.orthonormal, Matrix.one_mul]

theorem IsEigh.zero_one (h : IsEigh P w V) (hP : P * P = P) (i : Fin d) : w i = 0 ∨ w i = 1 := by
  have h1 : diagonal w * diagonal w = diagonal w := by
    rw [h.diag]
    calc Vᵀ * P * V * (Vᵀ * P * V) = Vᵀ * P * (V * Vᵀ) * P * V := by simp only [Matrix.mul_assoc]
      _ = Vᵀ * (P * P) * V := by rw [h.mul_transpose]; simp only [Matrix.mul_assoc, Matrix.one_mul]
      _ = _ := by rw [hP]
  rw [Matrix.diagonal_mul_diagonal] at h1
  have := congrFun (Matrix.diagonal_injective h1) i
  have h2 : w i * (w i - 1) = 0 := by linear_combination this
  rcases mul_eq_zero.mp h2 with h2 | h2
  · exact .inl h2
  · exact .inr (by linarith)

theorem IsEigh.trace (h : IsEigh P w V) : P.trace = ∑ i, w i := by
  rw [h.eq, Matrix.mul_assoc, Matrix.trace_mul_comm, Matrix.mul_assoc, h.orthonormal, Matrix.mul_one,
    Matrix.trace_diagonal]

theorem sum_keep (hw : ∀ i, w i = 0 ∨ w i = 1) (f : Fin d → ℝ) :
    ((keepCols w).map f).sum = ∑ i, w i * f i := by
  have hn : (keepCols w).Nodup := (List.nodup_finRange d).filter _
  rw [← List.sum_toFinset f hn]
  have : (keepCols w).toFinset = Finset.univ.filter fun i => w i = 1 := by
    ext i
    simp only [keepCols, List.mem_toFinset, List.mem_filter, List.mem_finRange, true_and,
      decide_eq_true_eq, Finset.mem_filter, Finset.mem_univ]
    rcases hw i with h | h <;> rw [h] <;> norm_num
  rw [this, Finset.sum_filter]
  apply Finset.sum_congr rfl
  intro i _
  rcases hw i with h | h <;> simp [h]

theorem keep_length (hw : ∀ i, w i = 0 ∨ w i = 1) : ((keepCols w).length : ℝ) = ∑ i, w i := by
  have := sum_keep hw (fun _ => 1)
  simpa using this

end Proj

theorem sum_range_getElem {α : Type} (l : List α) (f : α → ℝ) (g : ℕ → ℝ)
    (h : ∀ k (hk : k < l.length), g k = f l[k]) :
    ∑ k ∈ Finset.range l.length, g k = (l.map f).sum := by
  induction l generalizing g with
  | nil => simp
  | cons a t ih =>
    rw [List.length_cons, Finset.sum_range_succ', List.map_cons, List.sum_cons,
      ih (fun k => g (k + 1)) (fun k hk => h (k + 1) (by simp; omega)), h 0 (by simp)]
    simp [add_comm]

/-- Everything about the basis that `get_perpendicular_subspace` returns. -/
theorem perpendicular_ok {eigh : Eigh} (he : EighContract eigh) {r d : ℕ} {x B : Arr}
    (h : getPerpendicularSubspace eigh r d x = .ok B) :
    (toMatrix r d x * (toMatrix r d x)ᵀ).det ≠ 0 ∧ r ≤ d ∧ IsMat B d (d - r) ∧
    (∀ i < d - r, ∀ j < d - r, ∑ k ∈ Finset.range d, B.at2 k i * B.at2 k j =
        if i = j then 1 else 0) ∧
    ∀ k l : Fin d, ∑ j ∈ Finset.range (d - r), B.at2 k j * B.at2 l j =
      (1 - (toMatrix r d x)ᵀ * ((toMatrix r d x * (toMatrix r d x)ᵀ)⁻¹ * toMatrix r d x) :
        Matrix (Fin d) (Fin d) ℝ) k l := by
  set X := toMatrix r d x with hX
  unfold getPerpendicularSubspace at h
  by_cases hdet : (X * Xᵀ).det = 0
  · rw [← hX, projPerp, if_pos hdet] at h; cases h
  rw [← hX, projPerp_ok hdet, py_ok_bind] at h
  set P := 1 - Xᵀ * ((X * Xᵀ)⁻¹ * X) with hP
  have hE := he d P perp_symm
  generalize (eigh d P) = wv at h hE
  obtain ⟨w, V⟩ := wv
  simp only at h hE
  have hw := hE.zero_one (perp_idem hdet)
  split_ifs at h with hlen
  have hlen : ((keepCols w).length : ℤ) = d - r := by simpa using hlen
  have hrd : r ≤ d := by omega
  have hl : (keepCols w).length = d - r := by omega
  have hB := Except.ok.inj h
  have hn : (keepCols w).Nodup := (List.nodup_finRange d).filter _
  have hat : ∀ (k : Fin d) j (hj : j < (keepCols w).length), B.at2 k j = V k ((keepCols w)[j]) := by
    intro k j hj
    rw [← hB, Arr.at2_ofFn2 _ _ _ k.2 hj, dif_pos ⟨k.2, hj⟩]
  refine ⟨hdet, hrd, ?_, ?_, ?_⟩
  · rw [← hl, ← hB]; exact ⟨Arr.ofFn2_WF _ _ _, rfl⟩
  · rw [← hl]
    intro i hi j hj
    rw [Finset.sum_range]
    have : ∑ k : Fin d, B.at2 k i * B.at2 k j = (Vᵀ * V) ((keepCols w)[i]) ((keepCols w)[j]) := by
      rw [Matrix.mul_apply]
      exact Finset.sum_congr rfl fun k _ => by rw [hat k i hi, hat k j hj]; rfl
    rw [this, hE.orthonormal, Matrix.one_apply]
    simp [hn.getElem_inj_iff]
  · intro k l
    rw [← hl]
    rw [sum_range_getElem (keepCols w) (fun i => V k i * V l i) _
      (fun j hj => by rw [hat k j hj, hat l j hj]), sum_keep hw, hE.eq]
    rw [Matrix.mul_assoc, Matrix.mul_apply]
    apply Finset.sum_congr rfl
    intro i _
    rw [Matrix.diagonal_mul]
    simp only [Matrix.transpose_apply]
    ring

/-- `get_perpendicular_subspace` succeeds on constraint matrices of full row rank. -/
theorem perpendicular_succeeds {eigh : Eigh} (he : EighContract eigh) {r d : ℕ} (x : Arr)
    (h : (toMatrix r d x * (toMatrix r d x)ᵀ).det ≠ 0) :
    ∃ B, getPerpendicularSubspace eigh r d x = .ok B := by
  unfold getPerpendicularSubspace
  set X := toMatrix r d x with hX
  rw [projPerp_ok h, py_ok_bind]
  have hE := he d _ (perp_symm (X := X))
  generalize (eigh d (1 - Xᵀ * ((X * Xᵀ)⁻¹ * X))) = wv at hE
  obtain ⟨w, V⟩ := wv
  simp only at hE ⊢
  have hw := hE.zero_one (perp_idem h)
  have hl := keep_length hw
  rw [← hE.trace, perp_trace h] at hl
  have hl' : ((keepCols w).length : ℤ) = d - r := by exact_mod_cast hl
  rw [if_neg (by simpa using hl')]
  exact ⟨_, rfl⟩

/-- The contract of `eigh` can be met (spectral theorem). -/
theorem exists_eigh : ∃ eigh : Eigh, EighContract eigh := by
  have : ∀ d (M : Matrix (Fin d) (Fin d) ℝ), ∃ p : (Fin d → ℝ) × Matrix (Fin d) (Fin d) ℝ,
      M.IsSymm → IsEigh M p.1 p.2 := by
    intro d M
    by_cases h : M.IsSymm
    · have hM : M.IsHermitian := by
        rw [Matrix.IsHermitian, Matrix.conjTranspose_eq_transpose_of_trivial]; exact h
      refine ⟨(hM.eigenvalues, (hM.eigenvectorUnitary : Matrix (Fin d) (Fin d) ℝ)), fun _ => ⟨?_, ?_⟩⟩
      · have := Unitary.coe_star_mul_self hM.eigenvectorUnitary
        rwa [Matrix.star_eq_conjTranspose, Matrix.conjTranspose_eq_transpose_of_trivial] at this
      · have h1 := hM.spectral_theorem
        have h2 := Unitary.coe_star_mul_self hM.eigenvectorUnitary
        rw [Unitary.conjStarAlgAut_apply] at h1
        calc M * (hM.eigenvectorUnitary : Matrix (Fin d) (Fin d) ℝ)
            = (hM.eigenvectorUnitary : Matrix (Fin d) (Fin d) ℝ) *
                diagonal (RCLike.ofReal ∘ hM.eigenvalues) *
                (star (hM.eigenvectorUnitary : Matrix (Fin d) (Fin d) ℝ) *
                  (hM.eigenvectorUnitary : Matrix (Fin d) (Fin d) ℝ)) := by
              refine (congrArg (· * (hM.eigenvectorUnitary : Matrix (Fin d) (Fin d) ℝ)) h1).trans ?_
              simp only [Matrix.mul_assoc]
          _ = _ := by
              rw [h2, Matrix.mul_one]; rfl
    · exact ⟨(0, 0), fun h' => absurd h' h⟩
  choose f hf using this
  exact ⟨f, hf⟩

end LRVB
