import Mathlib.Analysis.Calculus.ContDiff.Basic
import Mathlib.Analysis.Calculus.FDeriv.Symmetric
import Mathlib.Analysis.Calculus.Deriv.Mul
import Mathlib.Analysis.Calculus.Deriv.Prod
import Mathlib.Algebra.Order.Group.Nat

/-! Iterated directional derivatives. -/

namespace LRVB

open scoped ContDiff

section

variable {E : Type} [NormedAddCommGroup E] [NormedSpace ℝ E]

/-- The derivative of `h` in the direction `u`, as a function of the point. -/
noncomputable def dirD {V : Type} [NormedAddCommGroup V] [NormedSpace ℝ V] (h : E → V) (u : E) :
    E → V := fun x => fderiv ℝ h x u

/-- The iterated derivative of `h` in the directions `us`, the first one innermost. -/
noncomputable def iterD {V : Type} [NormedAddCommGroup V] [NormedSpace ℝ V] (h : E → V)
    (us : List E) : E → V := us.foldl dirD h

variable {V : Type} [NormedAddCommGroup V] [NormedSpace ℝ V] {h : E → V}

@[simp] theorem iterD_nil (h : E → V) : iterD h [] = h := rfl

theorem iterD_cons (h : E → V) (u : E) (us : List E) : iterD h (u :: us) = iterD (dirD h u) us := rfl

theorem iterD_append (h : E → V) (us vs : List E) : iterD h (us ++ vs) = iterD (iterD h us) vs := by
  simp [iterD, List.foldl_append]

theorem iterD_concat (h : E → V) (us : List E) (u : E) :
    iterD h (us ++ [u]) = dirD (iterD h us) u := by
  rw [iterD_append]; rfl

theorem contDiff_fderiv (hh : ContDiff ℝ ∞ h) : ContDiff ℝ ∞ (fderiv ℝ h) :=
  hh.fderiv_right (by simp)

theorem contDiff_dirD (hh : ContDiff ℝ ∞ h) (u : E) : ContDiff ℝ ∞ (dirD h u) :=
  (contDiff_fderiv hh).clm_apply contDiff_const

theorem contDiff_iterD (hh : ContDiff ℝ ∞ h) (us : List E) : ContDiff ℝ ∞ (iterD h us) := by
  induction us generalizing h with
  | nil => exact hh
  | cons u us ih => exact ih (contDiff_dirD hh u)

theorem dirD_swap (hh : ContDiff ℝ ∞ h) (u v : E) : dirD (dirD h u) v = dirD (dirD h v) u := by
  have hd : Differentiable ℝ (fderiv ℝ h) := (contDiff_fderiv hh).differentiable (by simp)
  have key : ∀ (a b x : E), dirD (dirD h a) b x = fderiv ℝ (fderiv ℝ h) x b a := by
    intro a b x
    change fderiv ℝ (fun y => fderiv ℝ h y a) x b = _
    rw [fderiv_clm_apply (hd x) (differentiableAt_const a)]
    simp
  funext x
  rw [key, key]
  exact ((hh.contDiffAt (x := x)).isSymmSndFDerivAt (by
    simp only [minSmoothness_of_isRCLikeNormedField]; exact WithTop.coe_le_coe.mpr (le_top : (2 : ℕ∞) ≤ ⊤))).eq v u

theorem iterD_perm (hh : ContDiff ℝ ∞ h) {us vs : List E} (hp : us.Perm vs) :
    iterD h us = iterD h vs := by
  induction hp generalizing h with
  | nil => rfl
  | cons u _ ih => exact ih (contDiff_dirD hh u)
  | swap u v l => simp only [iterD_cons]; rw [dirD_swap hh]
  | trans _ _ ih1 ih2 => rw [ih1 hh, ih2 hh]

theorem iterD_concat_add (h : E → V) (us : List E) (u v : E) (x : E) :
    iterD h (us ++ [u + v]) x = iterD h (us ++ [u]) x + iterD h (us ++ [v]) x := by
  simp [iterD_concat, dirD]

theorem iterD_concat_zero (h : E → V) (us : List E) (x : E) : iterD h (us ++ [0]) x = 0 := by
  simp [iterD_concat, dirD]

theorem iterD_zero_mem (hh : ContDiff ℝ ∞ h) {us : List E} (h0 : (0 : E) ∈ us) (x : E) :
    iterD h us x = 0 := by
  obtain ⟨s, t, rfl⟩ := List.append_of_mem h0
  have hp : (s ++ 0 :: t).Perm ((s ++ t) ++ [0]) := by
    rw [List.append_assoc]
    exact List.Perm.append_left s (List.perm_append_singleton 0 t).symm
  rw [iterD_perm hh hp, iterD_concat_zero]

theorem iterD_clm {W : Type} [NormedAddCommGroup W] [NormedSpace ℝ W] {L : E → W →L[ℝ] V}
    (hL : ContDiff ℝ ∞ L) (w : W) (us : List E) (x : E) :
    iterD (fun y => L y w) us x = iterD L us x w := by
  induction us generalizing L with
  | nil => rfl
  | cons u us ih =>
    rw [iterD_cons, iterD_cons, ← ih (contDiff_dirD hL u)]
    congr 1
    funext y
    simp only [dirD]
    rw [fderiv_clm_apply (hL.differentiable (by simp) y) (differentiableAt_const w)]
    simp

theorem iterD_cons_clm (hh : ContDiff ℝ ∞ h) (u : E) (us : List E) (x : E) :
    iterD h (u :: us) x = iterD (fderiv ℝ h) us x u :=
  iterD_clm (contDiff_fderiv hh) u us x

end

/-- The product rule for an iterated derivative whose point and directions all move. -/
theorem iterD_hasDerivAt {E : Type} [NormedAddCommGroup E] [NormedSpace ℝ E] {γ : ℝ → E} {γ' : E}
    {t : ℝ} (hγ : HasDerivAt γ γ' t) (U : List (ℝ → E)) (U' : List E)
    (hU : List.Forall₂ (fun u u' => HasDerivAt u u' t) U U') :
    ∀ {V : Type} [NormedAddCommGroup V] [NormedSpace ℝ V] {h : E → V}, ContDiff ℝ ∞ h →
      HasDerivAt (fun s => iterD h (U.map (· s)) (γ s))
        (iterD h (U.map (· t) ++ [γ']) (γ t) +
          ((List.range U.length).map fun i =>
            iterD h ((U.map (· t)).set i (U'.getD i 0)) (γ t)).sum) t := by
  induction hU with
  | nil =>
    intro V _ _ h hh
    have := (hh.differentiable (by simp) (γ t)).hasFDerivAt.comp_hasDerivAt t hγ
    simpa [iterD, dirD, Function.comp_def] using this
  | @cons u u' U U' hu _ ih =>
    intro V _ _ h hh
    have h1 := (ih (contDiff_fderiv hh)).clm_apply hu
    have e : (fun s => iterD h (((u :: U)).map (· s)) (γ s)) =
        fun s => (iterD (fderiv ℝ h) (U.map (· s)) (γ s)) (u s) := by
      funext s
      rw [List.map_cons, iterD_cons_clm hh]
    rw [e]
    refine h1.congr_deriv ?_
    have hsum : ∀ l : List ℕ, (l.map fun i => iterD (fderiv ℝ h)
        ((U.map (· t)).set i (U'.getD i 0)) (γ t)).sum (u t) =
        (l.map fun i => iterD h (u t :: (U.map (· t)).set i (U'.getD i 0)) (γ t)).sum := by
      intro l
      induction l with
      | nil => rfl
      | cons a l ih => simp only [List.map_cons, List.sum_cons, ContinuousLinearMap.add_apply, ih,
          iterD_cons_clm hh]
    rw [ContinuousLinearMap.add_apply, hsum]
    simp only [List.map_cons, List.length_cons, List.range_succ_eq_map, List.map_map, List.sum_cons,
      List.cons_append, List.set_cons_zero, List.getD_cons_zero, iterD_cons_clm hh]
    have : ((fun i => iterD h ((u t :: U.map (· t)).set i ((u' :: U').getD i 0)) (γ t)) ∘ Nat.succ) =
        fun i => iterD h (u t :: (U.map (· t)).set i (U'.getD i 0)) (γ t) := by
      funext i; simp
    simp only [Function.comp_def, List.set_cons_succ, List.getD_cons_succ, iterD_cons_clm hh]
    abel

end LRVB
