import Verif.Model.OptUtils
import Verif.Spec.Leaf
import Verif.Spec.Matrix
import Verif.Lemmas.Subspace
import Verif.Lemmas.Arr

/-!
# C65: the inverse square root with thresholds
-/

namespace LRVB

open Matrix

/-! ### Specification -/

/-- A number moved up to the lower threshold, then down to the upper one. -/
noncomputable def clipped (evMin evMax : Option ℝ) (w : ℝ) : ℝ :=
  let low := match evMin with
    | none => w
    | some m => max w m
  match evMax with
  | none => low
  | some M => min low M

/-- `lam` is an eigenvalue of `M`. -/
def IsEigenvalue {d : ℕ} (M : Matrix (Fin d) (Fin d) ℝ) (lam : ℝ) : Prop := ∃ v, v ≠ 0 ∧ M *ᵥ v = lam • v

/-- The symmetric part of a matrix. -/
noncomputable def symPart {d : ℕ} (M : Matrix (Fin d) (Fin d) ℝ) : Matrix (Fin d) (Fin d) ℝ :=
  (1 / 2 : ℝ) • (M + Mᵀ)

/-! ### Lemmas -/

theorem thresholdEv_eq (evMin evMax : Option ℝ) (w : ℝ) : thresholdEv evMin evMax w = clipped evMin evMax w := by
  unfold thresholdEv clipped
  have h1 : ∀ a b : ℝ, (if a ≤ b then b else a) = max a b := fun a b => (max_def a b).symm
  have h2 : ∀ a b : ℝ, (if a ≥ b then b else a) = min a b := fun a b => by
    rw [min_comm, min_def]
  cases evMin <;> cases evMax <;> simp only [h1, h2]

theorem toMatrix_ofMatrix {d : ℕ} (M : Matrix (Fin d) (Fin d) ℝ) : toMatrix d d (ofMatrix M) = M := by
  ext i j
  simp only [toMatrix, ofMatrix, Matrix.of_apply]
  rw [Arr.at2_ofFn2 _ _ _ i.2 j.2, dif_pos ⟨i.2, j.2⟩]

theorem ofMatrix_isMat {d : ℕ} (M : Matrix (Fin d) (Fin d) ℝ) : IsMat (ofMatrix M) d d :=
  ⟨Arr.ofFn2_WF _ _ _, rfl⟩

theorem symPart_symm {d : ℕ} (M : Matrix (Fin d) (Fin d) ℝ) : (symPart M).IsSymm := by
  unfold symPart Matrix.IsSymm
  rw [Matrix.transpose_smul, Matrix.transpose_add, Matrix.transpose_transpose, add_comm]

namespace IsEigh

variable {d : ℕ} {M V : Matrix (Fin d) (Fin d) ℝ} {w : Fin d → ℝ}

theorem right (h : IsEigh M w V) : V * Vᵀ = 1 := mul_eq_one_comm.mp h.orthonormal

theorem eq' (h : IsEigh M w V) : M = V * (diagonal w * Vᵀ) := by
  rw [← mul_assoc, ← h.decomposition, mul_assoc, h.right, mul_one]

/-- A function of the matrix acts on its eigenvectors by the function of the eigenvalue. -/
theorem apply (h : IsEigh M w V) (f : ℝ → ℝ) {v : Fin d → ℝ} {lam : ℝ} (hv : M *ᵥ v = lam • v) :
    (V * (diagonal (fun i => f (w i)) * Vᵀ)) *ᵥ v = f lam • v := by
  have h1 : diagonal w *ᵥ (Vᵀ *ᵥ v) = lam • (Vᵀ *ᵥ v) := by
    rw [← mulVec_smul, ← hv]
    conv_rhs => rw [h.eq']
    rw [mulVec_mulVec, mulVec_mulVec, ← mul_assoc Vᵀ V, h.orthonormal, one_mul]
  have h2 : diagonal (fun i => f (w i)) *ᵥ (Vᵀ *ᵥ v) = f lam • (Vᵀ *ᵥ v) := by
    funext i
    have := congrFun h1 i
    rw [mulVec_diagonal, Pi.smul_apply, smul_eq_mul] at this ⊢
    by_cases hz : (Vᵀ *ᵥ v) i = 0
    · rw [hz, mul_zero, mul_zero]
    · rw [mul_right_cancel₀ hz this]
  rw [← mulVec_mulVec, ← mulVec_mulVec, h2, mulVec_smul, mulVec_mulVec, h.right, one_mulVec]

/-- The eigenvalues of the matrix are the listed numbers. -/
theorem eigenvalue_iff (h : IsEigh M w V) (lam : ℝ) : IsEigenvalue M lam ↔ ∃ i, w i = lam := by
  constructor
  · rintro ⟨v, hv0, hv⟩
    have hu : Vᵀ *ᵥ v ≠ 0 := by
      intro h0
      apply hv0
      rw [← one_mulVec v, ← h.right, ← mulVec_mulVec, h0, mulVec_zero]
    obtain ⟨i, hi⟩ := Function.ne_iff.mp hu
    refine ⟨i, ?_⟩
    have h1 : diagonal w *ᵥ (Vᵀ *ᵥ v) = lam • (Vᵀ *ᵥ v) := by
      rw [← mulVec_smul, ← hv]
      conv_rhs => rw [h.eq']
      rw [mulVec_mulVec, mulVec_mulVec, ← mul_assoc Vᵀ V, h.orthonormal, one_mul]
    have := congrFun h1 i
    rw [mulVec_diagonal, Pi.smul_apply, smul_eq_mul] at this
    exact mul_right_cancel₀ hi this
  · rintro ⟨i, rfl⟩
    refine ⟨V *ᵥ Pi.single i 1, ?_, ?_⟩
    · intro h0
      have h1 : Vᵀ *ᵥ (V *ᵥ Pi.single i 1) = 0 := by rw [h0, mulVec_zero]
      rw [mulVec_mulVec, h.orthonormal, one_mulVec] at h1
      have := congrFun h1 i
      simp at this
    · rw [mulVec_mulVec, h.decomposition, ← mulVec_mulVec, ← mulVec_smul]
      congr 1
      funext j
      rw [mulVec_diagonal]
      by_cases hj : j = i
      · subst hj; simp
      · simp [hj]

theorem withDiag (h : IsEigh M w V) (u : Fin d → ℝ) : IsEigh (V * (diagonal u * Vᵀ)) u V :=
  ⟨h.orthonormal, by rw [mul_assoc, mul_assoc, h.orthonormal, mul_one]⟩

end IsEigh

theorem clipped_le {evMin evMax : Option ℝ} {M : ℝ} (h : evMax = some M) (w : ℝ) : clipped evMin evMax w ≤ M := by
  subst h
  exact min_le_right _ _

theorem le_clipped {evMin evMax : Option ℝ} {m : ℝ} (h : evMin = some m) (hM : ∀ M, evMax = some M → m ≤ M)
    (w : ℝ) : m ≤ clipped evMin evMax w := by
  subst h
  cases evMax with
  | none => exact le_max_right _ _
  | some M => exact le_min (le_max_right _ _) (hM M rfl)

/-- **C65** For every square matrix and all thresholds: the call returns finite numbers exactly when the
thresholded eigenvalues of the symmetric part are positive.  Then the results are `S` and `C`, with `S`
symmetric and `S C S = I`; without thresholds `C` is the symmetric part; every eigenvector of the
symmetric part is an eigenvector of `C` with the thresholded eigenvalue, and these are all eigenvalues of
`C`; they are at most `ev_max` and, when `ev_min ≤ ev_max`, at least `ev_min`. -/
theorem C65_inverse_square_root {eigh : Eigh} (he : EighContract eigh) {d : ℕ} {hessian : Arr}
    (hs : IsMat hessian d d) (evMin evMax : Option ℝ) :
    ((∀ lam, IsEigenvalue (symPart (toMatrix d d hessian)) lam → 0 < clipped evMin evMax lam) ↔
      ∃ r, getSymMatrixInvSqrt eigh hessian evMin evMax = .ok r) ∧
    ∀ s c, getSymMatrixInvSqrt eigh hessian evMin evMax = .ok (s, c) →
      IsMat s d d ∧ IsMat c d d ∧
      (toMatrix d d s)ᵀ = toMatrix d d s ∧
      toMatrix d d s * toMatrix d d c * toMatrix d d s = 1 ∧
      (evMin = none → evMax = none → toMatrix d d c = symPart (toMatrix d d hessian)) ∧
      (∀ v lam, symPart (toMatrix d d hessian) *ᵥ v = lam • v →
        toMatrix d d c *ᵥ v = clipped evMin evMax lam • v) ∧
      (∀ mu, IsEigenvalue (toMatrix d d c) mu ↔
        ∃ lam, IsEigenvalue (symPart (toMatrix d d hessian)) lam ∧ mu = clipped evMin evMax lam) ∧
      (∀ mu, IsEigenvalue (toMatrix d d c) mu → ∀ M, evMax = some M → mu ≤ M) ∧
      (∀ mu, IsEigenvalue (toMatrix d d c) mu → ∀ m, evMin = some m → (∀ M, evMax = some M → m ≤ M) →
        m ≤ mu) := by
  have hsym : (0.5 : ℝ) • (toMatrix d d hessian + (toMatrix d d hessian)ᵀ) = symPart (toMatrix d d hessian) := by
    unfold symPart; norm_num
  have hE := he d _ (symPart_symm (toMatrix d d hessian))
  set w := (eigh d (symPart (toMatrix d d hessian))).1 with hw
  set V := (eigh d (symPart (toMatrix d d hessian))).2 with hV
  have hdef : getSymMatrixInvSqrt eigh hessian evMin evMax =
      if ∃ i, clipped evMin evMax (w i) ≤ 0 then .error .nonFinite
      else .ok (ofMatrix (V * (diagonal (fun i => 1 / Real.sqrt (clipped evMin evMax (w i))) * Vᵀ)),
        ofMatrix (V * (diagonal (fun i => clipped evMin evMax (w i)) * Vᵀ))) := by
    unfold getSymMatrixInvSqrt
    simp only [hs.2, hsym, thresholdEv_eq, ← hw, ← hV]
    simp
  have hpos : (∀ lam, IsEigenvalue (symPart (toMatrix d d hessian)) lam → 0 < clipped evMin evMax lam) ↔
      ¬ ∃ i, clipped evMin evMax (w i) ≤ 0 := by
    constructor
    · rintro h ⟨i, hi⟩
      exact absurd (h (w i) ((hE.eigenvalue_iff _).mpr ⟨i, rfl⟩)) (not_lt.mpr hi)
    · intro h lam hl
      obtain ⟨i, rfl⟩ := (hE.eigenvalue_iff _).mp hl
      by_contra hc
      exact h ⟨i, not_lt.mp hc⟩
  refine ⟨?_, ?_⟩
  · rw [hpos, hdef]
    constructor
    · intro h
      rw [if_neg h]
      exact ⟨_, rfl⟩
    · rintro ⟨r, hr⟩ h
      rw [if_pos h] at hr
      exact absurd hr (by simp)
  · intro s c hsc
    rw [hdef] at hsc
    split at hsc
    · exact absurd hsc (by simp)
    · rename_i hp
      injection hsc with hsc
      injection hsc with h1 h2
      subst h1; subst h2
      have hpos' : ∀ i, 0 < clipped evMin evMax (w i) := fun i => by
        by_contra hc; exact hp ⟨i, not_lt.mp hc⟩
      have hD := hE.withDiag fun i => clipped evMin evMax (w i)
      have heig : ∀ mu, IsEigenvalue (V * (diagonal (fun i => clipped evMin evMax (w i)) * Vᵀ)) mu ↔
          ∃ lam, IsEigenvalue (symPart (toMatrix d d hessian)) lam ∧ mu = clipped evMin evMax lam := by
        intro mu
        rw [hD.eigenvalue_iff]
        constructor
        · rintro ⟨i, rfl⟩
          exact ⟨w i, (hE.eigenvalue_iff _).mpr ⟨i, rfl⟩, rfl⟩
        · rintro ⟨lam, hl, rfl⟩
          obtain ⟨i, rfl⟩ := (hE.eigenvalue_iff _).mp hl
          exact ⟨i, rfl⟩
      simp only [toMatrix_ofMatrix]
      refine ⟨ofMatrix_isMat _, ofMatrix_isMat _, ?_, ?_, ?_, ?_, heig, ?_, ?_⟩
      · rw [transpose_mul, transpose_mul, transpose_transpose, diagonal_transpose, mul_assoc]
      · have e : ∀ A B : Matrix (Fin d) (Fin d) ℝ, V * (A * Vᵀ) * (V * (B * Vᵀ)) = V * ((A * B) * Vᵀ) := by
          intro A B
          rw [mul_assoc, mul_assoc A, ← mul_assoc Vᵀ, hE.orthonormal, one_mul, mul_assoc]
        rw [e, e, diagonal_mul_diagonal, diagonal_mul_diagonal]
        have : (fun i => 1 / Real.sqrt (clipped evMin evMax (w i)) * clipped evMin evMax (w i) *
            (1 / Real.sqrt (clipped evMin evMax (w i)))) = fun _ => 1 := by
          funext i
          have h0 := hpos' i
          have h1 : Real.sqrt (clipped evMin evMax (w i)) ≠ 0 := (Real.sqrt_pos.mpr h0).ne'
          have h2 := Real.mul_self_sqrt h0.le
          field_simp
          nlinarith
        rw [this, diagonal_one, one_mul, hE.right]
      · rintro rfl rfl
        exact hE.eq'.symm
      · intro v lam hv
        exact hE.apply (clipped evMin evMax) hv
      · intro mu hmu M hM
        obtain ⟨lam, -, rfl⟩ := (heig mu).mp hmu
        exact clipped_le hM lam
      · intro mu hmu m hm hM
        obtain ⟨lam, -, rfl⟩ := (heig mu).mp hmu
        exact le_clipped hm hM lam

/-- Eigenvalues between the thresholds are unchanged. -/
theorem clipped_between {evMin evMax : Option ℝ} {w : ℝ} (h1 : ∀ m, evMin = some m → m ≤ w)
    (h2 : ∀ M, evMax = some M → w ≤ M) : clipped evMin evMax w = w := by
  unfold clipped
  cases evMin with
  | none =>
    cases evMax with
    | none => rfl
    | some M => exact min_eq_left (h2 M rfl)
  | some m =>
    simp only [max_eq_left (h1 m rfl)]
    cases evMax with
    | none => rfl
    | some M => exact min_eq_left (h2 M rfl)

/-- **C65** (unchanged eigenvalues) An eigenvector of the symmetric part whose eigenvalue is between the
thresholds keeps its eigenvalue. -/
theorem C65_between_thresholds {eigh : Eigh} (he : EighContract eigh) {d : ℕ} {hessian s c : Arr}
    (hs : IsMat hessian d d) {evMin evMax : Option ℝ}
    (hr : getSymMatrixInvSqrt eigh hessian evMin evMax = .ok (s, c)) {v : Fin d → ℝ} {lam : ℝ}
    (hv : symPart (toMatrix d d hessian) *ᵥ v = lam • v)
    (h1 : ∀ m, evMin = some m → m ≤ lam) (h2 : ∀ M, evMax = some M → lam ≤ M) :
    toMatrix d d c *ᵥ v = lam • v := by
  have h := ((C65_inverse_square_root he hs evMin evMax).2 s c hr).2.2.2.2.2.1 v lam hv
  rwa [clipped_between h1 h2] at h

/-- With a positive lower threshold (and an upper one not below it) the call returns finite numbers for
every square matrix: a preconditioner always exists. -/
theorem C65_positive_threshold {eigh : Eigh} (he : EighContract eigh) {d : ℕ} {hessian : Arr}
    (hs : IsMat hessian d d) {m : ℝ} (hm : 0 < m) (evMax : Option ℝ) (hM : ∀ M, evMax = some M → m ≤ M) :
    ∃ r, getSymMatrixInvSqrt eigh hessian (some m) evMax = .ok r :=
  ((C65_inverse_square_root he hs (some m) evMax).1).mp fun lam _ => hm.trans_le (le_clipped rfl hM lam)

/-- **C65** for `set_objective_preconditioner`: when it returns, the objective has the first result as
its preconditioner, and nothing else of the objective but the value held by its parameter changed; the
three results are the Hessian that was given (or the objective's Hessian at `free_par`) and the two
results for it. -/
theorem C65_set_preconditioner {eigh : Eigh} (o : Objective Unit) (freePar : Option (List ℝ))
    (hessian : Option Arr) (evMin evMax : Option ℝ) {h s c : Arr}
    (hr : (setObjectivePreconditioner eigh o freePar hessian evMin evMax).2 = .ok (h, s, c)) :
    let o' := (setObjectivePreconditioner eigh o freePar hessian evMin evMax).1
    o'.precond = some s ∧ o'.fn = o.fn ∧ o'.logger = o.logger ∧
    getSymMatrixInvSqrt eigh h evMin evMax = .ok (s, c) ∧
    ((∃ g, hessian = some g ∧ h = g ∧ o'.par = o.par) ∨
      (hessian = none ∧ ∃ x, freePar = some x ∧ (o.funFreeHessian x ()).2 = .ok h ∧
        o'.par = (o.funFreeHessian x ()).1.par)) := by
  unfold setObjectivePreconditioner at hr ⊢
  cases hessian with
  | some g =>
    simp only at hr ⊢
    cases hg : getSymMatrixInvSqrt eigh g evMin evMax with
    | error e => rw [hg] at hr; exact absurd hr (by simp)
    | ok p =>
      obtain ⟨s', c'⟩ := p
      rw [hg] at hr
      simp only [Except.ok.injEq, Prod.mk.injEq] at hr
      obtain ⟨rfl, rfl, rfl⟩ := hr
      exact ⟨rfl, rfl, rfl, hg, .inl ⟨g, rfl, rfl, rfl⟩⟩
  | none =>
    cases freePar with
    | none => exact absurd hr (by simp)
    | some x =>
      simp only at hr ⊢
      cases hh : (o.funFreeHessian x ()).2 with
      | error e => rw [hh] at hr; exact absurd hr (by simp)
      | ok g =>
        rw [hh] at hr
        simp only at hr ⊢
        cases hg : getSymMatrixInvSqrt eigh g evMin evMax with
        | error e => rw [hg] at hr; exact absurd hr (by simp)
        | ok p =>
          obtain ⟨s', c'⟩ := p
          rw [hg] at hr
          simp only [Except.ok.injEq, Prod.mk.injEq] at hr
          obtain ⟨rfl, rfl, rfl⟩ := hr
          exact ⟨rfl, rfl, rfl, hg, .inr ⟨trivial, x, rfl, hh, rfl⟩⟩

/-- Without a Hessian and a point it raises `ValueError`. -/
theorem C65_set_preconditioner_none (eigh : Eigh) (o : Objective Unit) (evMin evMax : Option ℝ) :
    setObjectivePreconditioner eigh o none none evMin evMax = (o, .error .valueError) := rfl

example : IsMat (Arr.ofFn2 2 2 fun i j => if i = j then 2 else 1) 2 2 := ⟨Arr.ofFn2_WF _ _ _, rfl⟩

example : ∃ eigh : Eigh, EighContract eigh ∧
    ∃ r, getSymMatrixInvSqrt eigh (Arr.ofFn2 2 2 fun i j => if i = j then -2 else 1) (some 1) (some 3) = .ok r := by
  obtain ⟨eigh, he⟩ := exists_eigh
  exact ⟨eigh, he, C65_positive_threshold he ⟨Arr.ofFn2_WF _ _ _, rfl⟩ one_pos _
    (by rintro M ⟨⟩; norm_num)⟩

end LRVB
