import Verif.Props.TaylorError

/-!
# Sensitivities as functions of the direction: C167
-/

namespace LRVB

open scoped Topology ContDiff
open Filter

noncomputable section

variable {n m : ℕ} {F : (Fin n → ℝ) × (Fin m → ℝ) → ℝ}

theorem toVec_smul_list {d : List ℝ} (hd : d.length = m) (c : ℝ) :
    toVec m (d.map (c * ·)) = c • toVec m d := by
  funext i
  have hi : (i : ℕ) < m := i.2
  simp [toVec, List.getD_eq_getElem?_getD, hd]

theorem toVec_add_list {d d' : List ℝ} (hd : d.length = m) (hd' : d'.length = m) :
    toVec m (List.zipWith (· + ·) d d') = toVec m d + toVec m d' := by
  funext i
  have hi : (i : ℕ) < m := i.2
  simp [toVec, List.getD_eq_getElem?_getD, hd, hd']

/-- **C167** The `k`-th derivative of the optimum in the direction `d`, as returned by `evaluate_dkinput_dhyperk`, is a
fixed multilinear map of `k` directions, applied to `k` copies of `d`. -/
theorem C167_polynomial (hF : ContDiff ℝ ∞ F) (hn : 0 < n) (hm : 0 < m)
    (objFn : Param → Param → Py Arr) (inputPar hyperPar : Param) (hyperIsFree : Bool)
    (hev : Evaluates inputPar hyperPar objFn true hyperIsFree F)
    (x e : List ℝ) (hx : x.length = n) (he : e.length = m)
    (hcrit : fderiv ℝ (fun u => F (u, toVec m e)) (toVec n x) = 0)
    (hpc : PositiveCurvature F (toVec n x) (toVec m e)) (order : ℕ) (ho : 1 ≤ order)
    (hess0 : Option Arr) :
    ∃ T, Taylor.new objFn inputPar hyperPar x e order true hyperIsFree hess0 none = .ok T ∧
      ∀ k : ℕ, 1 ≤ k → k ≤ order →
        ∃ A : MultilinearMap ℝ (fun _ : Fin k => Fin m → ℝ) (Fin n → ℝ), ∀ d : List ℝ, d.length = m →
          (T.evaluateDk d k).2 = .ok (List.ofFn (A fun _ => toVec m d)) := by
  obtain ⟨T, h1, h2⟩ := C55_derivatives_exist hF hn hm objFn inputPar hyperPar hyperIsFree hev x e hx he
    hcrit hpc order ho hess0
  obtain ⟨ψ, g1, -, -, g4⟩ := optimum_near (r := order) ho (hF.of_le (by exact_mod_cast le_top)) hcrit hpc
  obtain ⟨φ, hφ, heq⟩ := exists_contDiff g1
  refine ⟨T, h1, fun k hk hko => ⟨(iteratedFDeriv ℝ k φ (toVec m e)).toMultilinearMap, fun d hd => ?_⟩⟩
  obtain ⟨η, hη, h3⟩ := h2 d hd
  have hline : η =ᶠ[𝓝 0] fun t : ℝ => φ (toVec m e + t • toVec m d) := by
    have : Tendsto (fun t : ℝ => toVec m e + t • toVec m d) (𝓝 0) (𝓝 (toVec m e)) := by
      have : Continuous fun t : ℝ => toVec m e + t • toVec m d := by fun_prop
      simpa using this.tendsto 0
    filter_upwards [g4 _ η hη, this.eventually heq] with t ht ht'
    rw [ht, ht']
  rw [h3 k hk hko, hline.iteratedDeriv_eq, iteratedDeriv_line hφ _ _ _ hko]
  simp

/-- **C167** Scaling the direction by `c` multiplies the `k`-th derivative by `c ^ k`, and the first derivative of a sum
of directions is the sum of the first derivatives. -/
theorem C167_scaling (hF : ContDiff ℝ ∞ F) (hn : 0 < n) (hm : 0 < m)
    (objFn : Param → Param → Py Arr) (inputPar hyperPar : Param) (hyperIsFree : Bool)
    (hev : Evaluates inputPar hyperPar objFn true hyperIsFree F)
    (x e : List ℝ) (hx : x.length = n) (he : e.length = m)
    (hcrit : fderiv ℝ (fun u => F (u, toVec m e)) (toVec n x) = 0)
    (hpc : PositiveCurvature F (toVec n x) (toVec m e)) (order : ℕ) (ho : 1 ≤ order)
    (hess0 : Option Arr) :
    ∃ T, Taylor.new objFn inputPar hyperPar x e order true hyperIsFree hess0 none = .ok T ∧
      (∀ k : ℕ, 1 ≤ k → k ≤ order → ∀ d : List ℝ, d.length = m → ∃ D : List ℝ, D.length = n ∧
        ∀ c : ℝ, (T.evaluateDk (d.map (c * ·)) k).2 = .ok (D.map (c ^ k * ·))) ∧
      ∀ d d' : List ℝ, d.length = m → d'.length = m → ∃ D D' : List ℝ, D.length = n ∧ D'.length = n ∧
        (T.evaluateDk d 1).2 = .ok D ∧ (T.evaluateDk d' 1).2 = .ok D' ∧
        (T.evaluateDk (List.zipWith (· + ·) d d') 1).2 = .ok (List.zipWith (· + ·) D D') := by
  obtain ⟨T, h1, h2⟩ := C167_polynomial hF hn hm objFn inputPar hyperPar hyperIsFree hev x e hx he
    hcrit hpc order ho hess0
  refine ⟨T, h1, fun k hk hko d hd => ?_, fun d d' hd hd' => ?_⟩
  · obtain ⟨A, hA⟩ := h2 k hk hko
    refine ⟨List.ofFn (A fun _ => toVec m d), by simp, fun c => ?_⟩
    rw [hA _ (by simp [hd]), toVec_smul_list hd, A.map_smul_univ (fun _ => c) fun _ => toVec m d, List.map_ofFn]
    simp [Function.comp_def]
    rfl
  · obtain ⟨A, hA⟩ := h2 1 le_rfl ho
    simp only [Nat.cast_one] at hA
    refine ⟨_, _, by simp, by simp, hA d hd, hA d' hd', ?_⟩
    rw [hA _ (by simp [hd, hd']), toVec_add_list hd hd']
    have h3 := A.map_update_add (fun _ => 0) 0 (toVec m d) (toVec m d')
    have h4 : ∀ v : Fin m → ℝ, Function.update (fun _ : Fin 1 => (0 : Fin m → ℝ)) 0 v = fun _ => v := by
      intro v
      funext i
      rw [Subsingleton.elim i 0, Function.update_self]
    rw [h4, h4, h4] at h3
    rw [h3]
    refine congrArg Except.ok (List.ext_getElem (by simp) fun i h5 h6 => ?_)
    simp

/-- The hypotheses of C167 are met by the objective of `exHF_case` at `(0, 0)`. -/
example : ∃ T, Taylor.new (scFn exH) (scPar .ninf) (scPar .ninf) [0] [0] 3 true false none none = .ok T ∧
    ∃ D : List ℝ, D.length = 1 ∧ ∀ c : ℝ, (T.evaluateDk [c * 2] (2 : ℕ)).2 = .ok (D.map (c ^ 2 * ·)) := by
  obtain ⟨h1, h2, h3⟩ := exHF_case
  obtain ⟨T, g1, g2, -⟩ := C167_scaling exHF_smooth one_pos one_pos _ _ _ _ h1 [0] [0] rfl rfl h2 h3 3
    (by omega) none
  exact ⟨T, g1, g2 2 (by omega) (by omega) [2] rfl⟩

end

end LRVB
