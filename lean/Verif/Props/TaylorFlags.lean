import Verif.Lemmas.Sens
import Verif.Props.Taylor

/-!
# C57, C58, C88: a supplied Hessian, the parameterization flags, and a separate functor
-/

namespace LRVB

open scoped ContDiff Matrix
open Flt

noncomputable section

variable {n m : ℕ} {F G : (Fin n → ℝ) × (Fin m → ℝ) → ℝ}

/-- The mixed second derivative of `F` at `(x, e)`: once along `a` in the first argument and once
along `d` in the second. -/
def MixedAlong (F : (Fin n → ℝ) × (Fin m → ℝ) → ℝ) (x a : Fin n → ℝ) (e d : Fin m → ℝ) (c : ℝ) : Prop :=
  HasDerivAt (fun t : ℝ => deriv (fun s : ℝ => F (x + s • a, e + t • d)) 0) c 0

/-- The response `v` of the input to a change of the hyperparameter along `d`, computed with `H` in
place of the Hessian: `H v` balances the change of the gradient. -/
def RespondsWith (F : (Fin n → ℝ) × (Fin m → ℝ) → ℝ) (x : Fin n → ℝ) (e d : Fin m → ℝ) (H : Arr)
    (v : Fin n → ℝ) : Prop :=
  ∀ i : Fin n, MixedAlong F x (Pi.single i 1) e d (-∑ j : Fin n, H.at2 i j * v j)

theorem mixedAlong (hF : ContDiff ℝ 2 F) (x a : Fin n → ℝ) (e d : Fin m → ℝ) :
    MixedAlong F x a e d (fderiv ℝ (fderiv ℝ F) (x, e) (0, d) (a, 0)) := by
  have h1 : (fun t : ℝ => deriv (fun s : ℝ => F (x + s • a, e + t • d)) 0) =
      fun t => fderiv ℝ F (x, e + t • d) (a, 0) := by
    funext t
    have hl : HasDerivAt (fun s : ℝ => ((x + s • a, e + t • d) : (Fin n → ℝ) × (Fin m → ℝ))) (a, 0) 0 := by
      have h1 : HasDerivAt (fun s : ℝ => x + s • a) a 0 := by
        simpa using ((hasDerivAt_id (0 : ℝ)).smul_const a).const_add x
      exact h1.prodMk (hasDerivAt_const _ _)
    have h2 : HasFDerivAt F (fderiv ℝ F (x, e + t • d)) (x + (0 : ℝ) • a, e + t • d) := by
      rw [zero_smul, add_zero]
      exact (hF.differentiable (by norm_num) _).hasFDerivAt
    exact (h2.comp_hasDerivAt (0 : ℝ) hl).deriv
  rw [MixedAlong, h1]
  have hl : HasDerivAt (fun t : ℝ => e + t • d) d 0 := by
    simpa using ((hasDerivAt_id (0 : ℝ)).smul_const d).const_add e
  have h2 := grad1_hasFDerivAt hF x a e
  have h3 : e = e + (0 : ℝ) • d := by simp
  have h4 := HasFDerivAt.comp_hasDerivAt (l := fun v => fderiv ℝ F (x, v) (a, 0)) (0 : ℝ)
    (by rw [← h3]; exact h2) hl
  refine h4.congr_deriv ?_
  simp

theorem respondsWith (hF : ContDiff ℝ 2 F) (x : Fin n → ℝ) (e d : Fin m → ℝ) {H : Arr}
    (hdet : (toMatrix n n H).det ≠ 0) :
    RespondsWith F x e d H (-((toMatrix n n H)⁻¹ *ᵥ fderiv ℝ (gradF F) (x, e) (0, d))) := by
  intro i
  have h1 := mixedAlong hF x (Pi.single i 1) e d
  have h2 : toMatrix n n H *ᵥ (-((toMatrix n n H)⁻¹ *ᵥ fderiv ℝ (gradF F) (x, e) (0, d))) =
      -fderiv ℝ (gradF F) (x, e) (0, d) := by
    rw [Matrix.mulVec_neg, Matrix.mulVec_mulVec,
      Matrix.mul_nonsing_inv _ (isUnit_iff_ne_zero.mpr hdet), Matrix.one_mulVec]
  have h3 := congrFun h2 i
  rw [Matrix.mulVec, dotProduct, Pi.neg_apply, gradF_fderiv hF, basis_eq_single] at h3
  simp only [toMatrix, Matrix.of_apply] at h3
  simp only [toMatrix] at h1 ⊢
  rw [h3, neg_neg]
  exact h1

/-! ### The quadratic objective -/

/-- `x² / 2 - ε x`; its optimum is `ε`. -/
def exQ (x ε : ℝ) : ℝ := x ^ 2 / 2 - ε * x

/-- ... as a function of vectors of length 1. -/
def exQF (z : (Fin 1 → ℝ) × (Fin 1 → ℝ)) : ℝ := exQ (z.1 0) (z.2 0)

theorem exQF_smooth : ContDiff ℝ ∞ exQF := by
  have h1 : ContDiff ℝ ∞ fun z : (Fin 1 → ℝ) × (Fin 1 → ℝ) => z.1 0 :=
    (contDiff_apply ℝ ℝ 0).comp contDiff_fst
  have h2 : ContDiff ℝ ∞ fun z : (Fin 1 → ℝ) × (Fin 1 → ℝ) => z.2 0 :=
    (contDiff_apply ℝ ℝ 0).comp contDiff_snd
  exact ((h1.pow 2).div_const 2).sub (h2.mul h1)

theorem exQ_deriv (ε s : ℝ) : HasDerivAt (fun s => exQ s ε) (s - ε) s := by
  have h := ((hasDerivAt_id s).pow 2).div_const 2
  have h' := h.sub ((hasDerivAt_id s).const_mul ε)
  refine (h'.congr_deriv (by simp)).congr_of_eventuallyEq ?_
  exact Filter.Eventually.of_forall fun s => by simp [exQ]

theorem exQF_curv (x e : ℝ) : PositiveCurvature exQF (toVec 1 [x]) (toVec 1 [e]) :=
  scalar_curv (h := fun s => exQ s e) (h1 := fun s => s - e) (c := 1) (fun s => exQ_deriv e s)
    ((hasDerivAt_id x).sub_const e) one_pos

/-- The optimum of the quadratic objective moves with the hyperparameter. -/
theorem exQF_path (e : ℝ) : OptimumPath exQF (toVec 1 [e]) (toVec 1 [e]) (toVec 1 [1])
    (fun t => toVec 1 [e + t]) := by
  have hs : ContDiff ℝ ∞ fun t : ℝ => toVec 1 [e + t] := by
    rw [contDiff_pi]
    intro i
    have : (fun t : ℝ => toVec 1 [e + t] i) = fun t => e + t := by
      funext t
      rw [Subsingleton.elim i 0]; rfl
    rw [this]
    exact contDiff_const.add contDiff_id
  refine ⟨Filter.Eventually.of_forall fun t => hs.contDiffAt, by simp, Filter.Eventually.of_forall ?_⟩
  intro t
  have : (toVec 1 [e] + t • toVec 1 [1]) 0 = e + t := by simp [toVec]
  have h := exQ_deriv (e + t) (e + t)
  rw [sub_self] at h
  have h' := scalar_crit h
  simp only [exQF, this]
  exact h'

theorem toVec_one_iter (e : ℝ) (k : ℕ) :
    List.ofFn (iteratedDeriv (k + 1) (fun t : ℝ => toVec 1 [e + t]) 0) = [if k = 0 then 1 else 0] := by
  have h1 : deriv (fun t : ℝ => toVec 1 [e + t]) = fun _ => toVec 1 [1] := by
    funext t
    have : HasDerivAt (fun t : ℝ => toVec 1 [e + t]) (toVec 1 [1]) t := by
      rw [hasDerivAt_pi]
      intro i
      have : (fun t : ℝ => toVec 1 [e + t] i) = fun t => e + t := by
        funext t
        rw [Subsingleton.elim i 0]; rfl
      rw [this, Subsingleton.elim i 0]
      simpa [toVec] using (hasDerivAt_id t).const_add e
    exact this.deriv
  rw [iteratedDeriv_succ', h1, iteratedDeriv_const]
  by_cases hk : k = 0
  · simp [hk, toVec]
  · simp [hk]

/-! ### C57 -/

/-- **C57 fails** for the constructors: they do not use the Hessian given to them, so the results are
the same for every Hessian.  For `x² / 2 - ε x` at `(0, 0)` and any supplied Hessian `[[h]]` the
derivative returned is 1, which is not the `1 / h` of a response computed with `h ≠ 1`. -/
theorem C57_constructor_counterexample :
    (∀ objFn inputPar hyperPar x e order fi fh H hyperFn,
      Taylor.new objFn inputPar hyperPar x e order fi fh (some H) hyperFn =
        Taylor.new objFn inputPar hyperPar x e order fi fh none hyperFn) ∧
    (∀ objFn inputPar hyperPar x e fi fh H hyperFn,
      LinApprox.new objFn inputPar hyperPar x e fi fh (some H) hyperFn =
        LinApprox.new objFn inputPar hyperPar x e fi fh none hyperFn) ∧
    (∀ h : ℝ, ∃ T, Taylor.new (scFn exQ) (scPar ninf) (scPar ninf) [0] [0] 1 true false
      (some ⟨[1, 1], [h]⟩) none = .ok T ∧ (T.evaluateDk [1] 1).2 = .ok [1] ∧
      ∀ v, RespondsWith exQF (toVec 1 [0]) (toVec 1 [0]) (toVec 1 [1]) ⟨[1, 1], [h]⟩ v → h * v 0 = 1) ∧
    (∀ h : ℝ, ∃ T, LinApprox.new (scFn exQ) (scPar ninf) (scPar ninf) [0] [0] true false
      (some ⟨[1, 1], [h]⟩) none = .ok T ∧ T.dinputDhyper.at2 0 0 = 1) := by
  have hmixed : ∀ c, MixedAlong exQF (toVec 1 [0]) (Pi.single 0 1) (toVec 1 [0]) (toVec 1 [1]) c →
      c = -1 := by
    intro c hc
    rw [MixedAlong] at hc
    have h1 : (fun t : ℝ => deriv (fun s : ℝ => exQF (toVec 1 [0] + s • Pi.single 0 1,
        toVec 1 [0] + t • toVec 1 [1])) 0) = fun t => -t := by
      funext t
      have h2 : (fun s : ℝ => exQF (toVec 1 [0] + s • Pi.single 0 1, toVec 1 [0] + t • toVec 1 [1])) =
          fun s => exQ s t := by
        funext s
        simp [exQF, toVec]
      rw [h2, (exQ_deriv t 0).deriv, zero_sub]
    rw [h1] at hc
    exact hc.unique (hasDerivAt_neg 0)
  refine ⟨fun _ _ _ _ _ _ _ _ _ _ => rfl, fun _ _ _ _ _ _ _ _ _ => rfl, fun h => ?_, fun h => ?_⟩
  · obtain ⟨T, hT, hd⟩ := C55_kth_derivative exQF_smooth one_pos one_pos (scFn exQ) (scPar ninf)
      (scPar ninf) false (scFn_real exQ true false) [0] [0] rfl rfl (exQF_curv 0 0) 1 le_rfl
      (some ⟨[1, 1], [h]⟩)
    refine ⟨T, hT, ?_, ?_⟩
    · obtain ⟨T', h1, -⟩ := hd [1] rfl _ (exQF_path 0) 1 le_rfl le_rfl
      rw [toVec_one_iter 0 0] at h1
      rw [Nat.cast_one] at h1
      rw [h1]; rfl
    · intro v hv
      have := hmixed _ (hv 0)
      simp [Arr.at2] at this
      exact this
  · obtain ⟨l, hl⟩ := LinApprox.setBase_ok (T := ⟨scPar ninf, scPar ninf, true, false, scFn exQ,
      scFn exQ, ⟨⟨[0, 0], []⟩, [], []⟩, ⟨[0, 0], []⟩, ⟨[0, 0], []⟩, ⟨[0, 0], []⟩⟩) rfl rfl
      (exQF_smooth.of_le two_le_infty) (scFn_real exQ true false) (exQF_smooth.of_le two_le_infty)
      (scFn_real exQ true false) one_pos (x := [0]) (e := [0]) rfl rfl none rfl
      (hessArr_posDef (exQF_smooth.of_le two_le_infty) (exQF_curv 0 0))
    refine ⟨_, by simp only [LinApprox.new, Option.getD_none, hl]; rfl, ?_⟩
    have hlr := linearResponse_of (exQF_smooth.of_le two_le_infty) (x := [0]) (e := [0]) rfl rfl
      (exQF_curv 0 0) rfl
    obtain ⟨A, hA, hA2, -⟩ := hlr.2 id continuousAt_id rfl (Filter.Eventually.of_forall fun e' => by
      have h := exQ_deriv (e' 0) (e' 0)
      rw [sub_self] at h
      have h' := scalar_crit h
      have : (toVec 1 [e' 0]) = e' := by
        funext i
        rw [Subsingleton.elim i 0]; rfl
      rw [this] at h'
      exact h')
    have := hA2 0 0
    rw [hA.unique (hasFDerivAt_id _)] at this
    simp only [LinApprox.dinputDhyper, Option.getD_none]
    simpa using this

/-- **C57**, the part that holds: `set_base_values(x, e, H)` does use the Hessian it is given.  Take
any constructed Taylor expansion with any flags, call its methods in any order, and supply a positive
definite `H` with new base values.  The first derivative returned responds with `H`. -/
theorem C57_set_base_values_partial (hF : ContDiff ℝ ∞ F) (hn : 0 < n) (hm : 0 < m)
    (objFn : Param → Param → Py Arr) (inputPar hyperPar : Param) (inputIsFree hyperIsFree : Bool)
    (hev : Evaluates inputPar hyperPar objFn inputIsFree hyperIsFree F)
    (x0 e0 : List ℝ) (order : ℕ) (hess0 : Option Arr) (T0 : Taylor)
    (hnew : Taylor.new objFn inputPar hyperPar x0 e0 order inputIsFree hyperIsFree hess0 none = .ok T0)
    (calls : List Taylor.Op) (x e : List ℝ) (hx : x.length = n) (he : e.length = m) (H : Arr)
    (hs : H.shape = [n, n]) (hpd : (toMatrix n n H).PosDef) :
    ((calls.foldl Taylor.step T0).setBaseValues x e (some H)).2 = none ∧
    let T := ((calls.foldl Taylor.step T0).setBaseValues x e (some H)).1
    1 ≤ T.order → ∀ d : List ℝ, d.length = m → ∃ v : Fin n → ℝ,
      (T.evaluateDk d 1).2 = .ok (List.ofFn v) ∧
      RespondsWith F (toVec n x) (toVec m e) (toVec m d) H v := by
  have hI := Taylor.Inv.run hF calls (Taylor.Inv.of_new hF hev hnew)
  obtain ⟨l, e1⟩ := Taylor.setBase_supplied hI hx he hs hpd
  have hI1 := hI.step hF (.setBase x e (some H))
  rw [Taylor.step] at hI1
  refine ⟨by rw [e1], ?_⟩
  intro T ho d hd
  have hT : T = ((calls.foldl Taylor.step T0).setBaseValues x e (some H)).1 := rfl
  rw [← hT] at hI1
  rw [e1] at hT
  simp only at hT
  have hb : T.base = ⟨H, x, e⟩ := by rw [hT]
  obtain ⟨s1, s2⟩ := TwoObjective.evalFun_ok (hI1.ev x e hx he)
  simp only at s1 s2
  have := Taylor.evaluateDk_one hI1.ready hn hm (d := d) (by rw [hb]; exact hx) (by rw [hb]; exact he) hd
    (by rw [hb]; exact hs) (by rw [hb]; exact hpd.det_pos.ne') (by rw [hb, hI1.hfi]; exact s1)
    (by rw [hb, hI1.hfh]; exact s2) ho
  rw [this, hb]
  exact ⟨_, rfl, respondsWith (hF.of_le two_le_infty) _ _ _ hpd.det_pos.ne'⟩

/-- ... and so does the linear approximation: every column of the sensitivity responds with `H`. -/
theorem C57_linear_approximation_partial (hF : ContDiff ℝ 2 F) (hn : 0 < n)
    (objFn : Param → Param → Py Arr) (inputPar hyperPar : Param)
    (hev : Evaluates inputPar hyperPar objFn true false F)
    (x0 e0 : List ℝ) (hess0 : Option Arr) (T0 : LinApprox)
    (hnew : LinApprox.new objFn inputPar hyperPar x0 e0 true false hess0 none = .ok T0)
    (calls : List (List ℝ × List ℝ × Option Arr))
    (x e : List ℝ) (hx : x.length = n) (he : e.length = m) (H : Arr)
    (hs : H.shape = [n, n]) (hpd : (toMatrix n n H).PosDef) :
    ∃ T, (calls.foldl LinApprox.step T0).setBaseValues x e (some H) = (T, none) ∧
      ∀ j : Fin m, RespondsWith F (toVec n x) (toVec m e) (Pi.single j 1) H
        (fun i => T.dinputDhyper.at2 i j) := by
  obtain ⟨k1, k2, k3, k4, k5, k6⟩ := LinApprox.keeps_new hnew
  obtain ⟨r1, r2, r3, r4, r5, r6⟩ := LinApprox.keeps_run calls T0
  have b1 := r5.trans k5
  have b2 := r6.trans k6
  obtain ⟨l, hl⟩ := LinApprox.setBase_ok (T := calls.foldl LinApprox.step T0) (r1.trans k1)
    (r2.trans k2) hF (by rw [r3, k3]; exact Taylor.evaluates_blank hev b1.symm b2.symm) hF
    (by rw [r4, k4]; exact Taylor.evaluates_blank hev b1.symm b2.symm) hn hx he (some H) hs hpd
  refine ⟨_, hl, fun j => ?_⟩
  have h1 := respondsWith hF (toVec n x) (toVec m e) (Pi.single j 1) (H := H) hpd.det_pos.ne'
  convert h1 using 1
  funext i
  simp only [LinApprox.dinputDhyper, Option.getD_some]
  rw [sensArr_at2, Matrix.mul_apply, Pi.neg_apply, Matrix.mulVec, dotProduct]
  congr 1
  refine Finset.sum_congr rfl fun k _ => ?_
  congr 1
  rw [gradF_fderiv hF, toMatrix, Matrix.of_apply, crossArr, Arr.at2_ofFn2 _ _ _ k.2 j.2, basis_eq_single j]

/-- The hypotheses of C57 are met: the quadratic objective, with the Hessian 2 supplied. -/
example : (∃ T, Taylor.new (scFn exQ) (scPar ninf) (scPar ninf) [0] [0] 1 true false none none = .ok T) ∧
    Evaluates (scPar ninf) (scPar ninf) (scFn exQ) true false exQF ∧
    (toMatrix 1 1 ⟨[1, 1], [2]⟩).PosDef := by
  obtain ⟨T, h, -⟩ := C57_constructor_counterexample.2.2.1 2
  refine ⟨⟨T, h⟩, scFn_real exQ true false, ?_⟩
  have : toMatrix 1 1 ⟨[1, 1], [2]⟩ = Matrix.diagonal fun _ => (2 : ℝ) := by
    ext i j
    rw [Subsingleton.elim i 0, Subsingleton.elim j 0]
    simp [toMatrix, Arr.at2]
  rw [this]
  exact Matrix.PosDef.diagonal fun _ => two_pos

/-! ### C58 -/

theorem constrainFn_zero (x : ℝ) : Leaf.constrainFn (fin 0) pinf x = Real.exp x := by
  simp [Leaf.constrainFn, constrainReal, constrain]

/-- `set_base_values` of an object that takes vector input: the Hessian is that of the function `K` of
the free value, at the vector value. -/
theorem Taylor.setBase_vector {K : (Fin n → ℝ) × (Fin m → ℝ) → ℝ} (hK : ContDiff ℝ 2 K) {fh : Bool}
    {T : Taylor} (hfi : T.inputIsFree = false)
    (hfh : T.hyperIsFree = fh) (hev : Evaluates T.inputPar T.hyperPar T.objFn false fh F)
    (hevK : Evaluates T.inputPar T.hyperPar T.objFn true fh K)
    (hn : 0 < n) {x e : List ℝ} (hx : x.length = n) (he : e.length = m)
    (hpc : PositiveCurvature K (toVec n x) (toVec m e)) :
    ∃ l, T.setBaseValues x e none = ({ T with
      inputPar := (setPar T.inputPar x true).1, hyperPar := (setPar T.hyperPar e fh).1,
      base := ⟨hessArr K (toVec n x) (toVec m e), x, e⟩, chol := l }, none) := by
  obtain ⟨s1, s2⟩ := TwoObjective.evalFun_ok (hev x e hx he)
  obtain ⟨s3, -⟩ := TwoObjective.evalFun_ok (hevK x e hx he)
  simp only at s1 s2 s3
  obtain ⟨T1, hT1⟩ : ∃ T1, T1 = ({ T with base := { T.base with inputVal0 := x, hyperVal0 := e } } :
    Taylor) := ⟨_, rfl⟩
  have e1 : T1.setParToBase = ({ T with
      inputPar := (setPar T.inputPar x false).1, hyperPar := (setPar T.hyperPar e fh).1,
      base := { T.base with inputVal0 := x, hyperVal0 := e } }, none) := by
    have := setParToBase_ok (T := T1) (by rw [hT1]; simpa [hfi] using s1)
      (by rw [hT1]; simpa [hfh] using s2)
    rw [this, hT1]
    simp only [hfi, hfh]
  have hH : T1.setParToBase.1.objective.funFreeHessian x () =
      ({ T1.setParToBase.1.objective with par := (setPar T.inputPar x true).1 },
        .ok (hessArr K (toVec n x) (toVec m e))) := by
    rw [e1]
    have h0 := funFreeHessian_base hK (evaluates_blank hevK
      (setPar_blank T.inputPar x false).symm rfl) hn hx he
    rw [setPar_eq (setPar_blank T.inputPar x false).symm s3] at h0
    exact h0
  obtain ⟨l, hl⟩ := setHess_ok ({ T1.setParToBase.1 with inputPar := (setPar T.inputPar x true).1 } : Taylor)
    (H := hessArr K (toVec n x) (toVec m e)) rfl (hessArr_posDef hK hpc)
  refine ⟨l, ?_⟩
  simp only [setBaseValues]
  rw [← hT1, hH]
  simp only [hl]
  rw [e1]

/-- The quadratic objective as a function of the logarithm of the input. -/
def exQE (z : (Fin 1 → ℝ) × (Fin 1 → ℝ)) : ℝ := exQ (Real.exp (z.1 0)) (z.2 0)

theorem exQE_smooth : ContDiff ℝ 2 exQE := by
  have h1 : ContDiff ℝ 2 fun z : (Fin 1 → ℝ) × (Fin 1 → ℝ) => Real.exp (z.1 0) :=
    ((contDiff_apply ℝ ℝ 0).comp contDiff_fst).exp
  have h2 : ContDiff ℝ 2 fun z : (Fin 1 → ℝ) × (Fin 1 → ℝ) => z.2 0 :=
    (contDiff_apply ℝ ℝ 0).comp contDiff_snd
  exact ((h1.pow 2).div_const 2).sub (h2.mul h1)

theorem exQE_deriv (s : ℝ) : HasDerivAt (fun s => exQ (Real.exp s) 1)
    (Real.exp s * Real.exp s - Real.exp s) s := by
  have h := HasDerivAt.comp s (exQ_deriv 1 (Real.exp s)) (Real.hasDerivAt_exp s)
  exact h.congr_deriv (by ring)

theorem exQE_deriv2 (s : ℝ) : HasDerivAt (fun s => Real.exp s * Real.exp s - Real.exp s)
    (2 * Real.exp s ^ 2 - Real.exp s) s := by
  have h := (Real.hasDerivAt_exp s).mul (Real.hasDerivAt_exp s)
  exact (h.sub (Real.hasDerivAt_exp s)).congr_deriv (by ring)

theorem exQE_pos : 0 < 2 * Real.exp 1 ^ 2 - Real.exp 1 := by
  have := Real.add_one_lt_exp (x := 1) one_ne_zero
  nlinarith

theorem exQE_curv : PositiveCurvature exQE (toVec 1 [1]) (toVec 1 [1]) :=
  scalar_curv (h := fun s => exQ (Real.exp s) 1) (fun s => exQE_deriv s) (exQE_deriv2 1) exQE_pos

theorem scalar_hess {h h1 : ℝ → ℝ} {F : (Fin 1 → ℝ) × (Fin 1 → ℝ) → ℝ} (hF : ContDiff ℝ 2 F) {x e c : ℝ}
    (hFh : ∀ u, F (u, toVec 1 [e]) = h (u 0))
    (hd : ∀ s, HasDerivAt h (h1 s) s) (hd2 : HasDerivAt h1 c x) :
    toMatrix 1 1 (hessArr F (toVec 1 [x]) (toVec 1 [e])) = Matrix.diagonal fun _ => c := by
  ext i j
  rw [Subsingleton.elim i 0, Subsingleton.elim j 0, Matrix.diagonal_apply_eq, toMatrix_hessArr,
    ← curvature_eq hF]
  have e0 : (fun t : ℝ => F (toVec 1 [x] + t • basis 1 ((0 : Fin 1) : ℕ), toVec 1 [e])) =
      fun t => h (x + t) := by
    funext t
    rw [hFh]
    simp [toVec, basis]
  have e1 : deriv (fun t : ℝ => h (x + t)) = fun t => h1 (x + t) := by
    funext t
    exact ((HasDerivAt.comp t (hd (x + t)) ((hasDerivAt_id t).const_add x)).congr_deriv (mul_one _)).deriv
  rw [e0, iteratedDeriv_succ, iteratedDeriv_one, e1]
  have hx : HasDerivAt h1 c (x + 0) := by simpa using hd2
  exact ((HasDerivAt.comp (0 : ℝ) hx ((hasDerivAt_id (0 : ℝ)).const_add x)).congr_deriv (mul_one _)).deriv

theorem inv_diagonal_one {c : ℝ} (hc : c ≠ 0) :
    (Matrix.diagonal fun _ : Fin 1 => c)⁻¹ = Matrix.diagonal fun _ : Fin 1 => 1 / c := by
  refine Matrix.inv_eq_left_inv ?_
  rw [Matrix.diagonal_mul_diagonal]
  ext i j
  rw [Subsingleton.elim i j]
  simp [hc]

/-- The change of the gradient of the quadratic objective. -/
theorem exQF_gradF (x e w : Fin 1 → ℝ) : fderiv ℝ (gradF exQF) (x, e) (0, w) = fun _ => -w 0 := by
  have h2 := exQF_smooth.of_le two_le_infty
  funext i
  rw [gradF_fderiv h2, Subsingleton.elim i 0, basis_eq_single]
  have h1 := mixedAlong h2 x (Pi.single 0 1) e w
  rw [MixedAlong] at h1
  have h3 : (fun t : ℝ => deriv (fun s : ℝ => exQF (x + s • Pi.single 0 1, e + t • w)) 0) =
      fun t => x 0 - (e 0 + t * w 0) := by
    funext t
    have : (fun s : ℝ => exQF (x + s • Pi.single 0 1, e + t • w)) = fun s => exQ (x 0 + s) (e 0 + t * w 0) := by
      funext s
      simp [exQF]
    rw [this]
    have h4 := HasDerivAt.comp (0 : ℝ) (exQ_deriv (e 0 + t * w 0) (x 0 + 0)) ((hasDerivAt_id (0 : ℝ)).const_add (x 0))
    rw [mul_one, add_zero] at h4
    exact h4.deriv
  rw [h3] at h1
  have h5 : HasDerivAt (fun t : ℝ => x 0 - (e 0 + t * w 0)) (-w 0) 0 := by
    simpa using (((hasDerivAt_id (0 : ℝ)).mul_const (w 0)).const_add (e 0)).const_sub (x 0)
  exact h1.unique h5

/-- **C58 fails** for `input_is_free=False`: the Hessian is computed in the free parameterization, at
the vector value.  The objective is `x² / 2 - ε x` of a positive scalar, whose optimum is `ε`, at
`x = ε = 1`.  The constructor leaves the input parameter at `e` and not at 1, and the derivative of
the optimum, which is 1, is returned as `1 / (2 e² - e)`. -/
theorem C58_vector_input_counterexample :
    Evaluates (scPar (fin 0)) (scPar ninf) (scFn exQ) false false exQF ∧
    OptimumPath exQF (toVec 1 [1]) (toVec 1 [1]) (toVec 1 [1]) (fun t => toVec 1 [1 + t]) ∧
    List.ofFn (iteratedDeriv 1 (fun t : ℝ => toVec 1 [1 + t]) 0) = [1] ∧
    1 / (2 * Real.exp 1 ^ 2 - Real.exp 1) ≠ 1 ∧
    ∃ T, Taylor.new (scFn exQ) (scPar (fin 0)) (scPar ninf) [1] [1] 1 false false none none = .ok T ∧
      T.inputPar.getVector = .ok [Real.exp 1] ∧
      (T.evaluateDk [1] 1).2 = .ok [1 / (2 * Real.exp 1 ^ 2 - Real.exp 1)] := by
  have h0 : (fin 0 : Flt) < pinf := by simp
  have hev : Evaluates (n := 1) (m := 1) (scPar (fin 0)) (scPar ninf) (scFn exQ) false false exQF :=
    scFn_evaluates (fin 0) ninf h0 ninf_lt_pinf false false exQ
  have hevK : Evaluates (n := 1) (m := 1) (scPar (fin 0)) (scPar ninf) (scFn exQ) true false exQE := by
    have := scFn_evaluates (fin 0) ninf h0 ninf_lt_pinf true false exQ
    simp only [constrainFn_zero, if_true, Bool.false_eq_true, if_false] at this
    exact this
  refine ⟨hev, exQF_path 1, by rw [toVec_one_iter 1 0]; simp, ?_, ?_⟩
  · have := Real.add_one_lt_exp (x := 1) one_ne_zero
    intro h
    rw [div_eq_one_iff_eq exQE_pos.ne'] at h
    nlinarith
  · obtain ⟨T0, hT0⟩ : ∃ T0, T0 = (⟨scPar (fin 0), scPar ninf, false, false, scFn exQ, scFn exQ,
      ⟨⟨[0, 0], []⟩, [], []⟩, ⟨[0, 0], []⟩, 0, [], []⟩ : Taylor) := ⟨_, rfl⟩
    obtain ⟨l, e1⟩ := Taylor.setBase_vector exQE_smooth (T := T0) (fh := false) (by rw [hT0]) (by rw [hT0])
      (by rw [hT0]; exact hev) (by rw [hT0]; exact hevK) one_pos (x := [1]) (e := [1]) rfl rfl exQE_curv
    obtain ⟨T1, hT1⟩ : ∃ T1, T1 = (T0.setBaseValues [1] [1] none).1 := ⟨_, rfl⟩
    have b1 : T1.inputPar.blank = (scPar (fin 0)).blank := by
      rw [hT1, e1, hT0]
      exact setPar_blank _ _ _
    have b2 : T1.hyperPar.blank = (scPar ninf).blank := by
      rw [hT1, e1, hT0]
      exact setPar_blank _ _ _
    have hev1 : Evaluates T1.inputPar T1.hyperPar T1.hyperFn T1.inputIsFree T1.hyperIsFree exQF := by
      have : T1.hyperFn = scFn exQ ∧ T1.inputIsFree = false ∧ T1.hyperIsFree = false := by
        rw [hT1, e1, hT0]
        exact ⟨rfl, rfl, rfl⟩
      rw [this.1, this.2.1, this.2.2]
      exact Taylor.evaluates_blank hev b1.symm b2.symm
    obtain ⟨L, e2, hR⟩ := Taylor.setOrder_ready exQF_smooth T1 hev1 1 le_rfl
    have hnew : Taylor.new (scFn exQ) (scPar (fin 0)) (scPar ninf) [1] [1] 1 false false none none =
        .ok (T1.setOrder 1).1 := by
      unfold Taylor.new
      simp only [Option.getD_none]
      rw [← hT0, ← hT1, e1]
      simp only
      rw [e2]
    refine ⟨_, hnew, ?_, ?_⟩
    · rw [e2, hT1, e1, hT0]
      obtain ⟨s1, g1⟩ := scPar_getVector (fin 0) h0 true 1
      rw [Param.mark_plain _ (setPar_plain _ _ _ s1), constrainFn_zero] at g1
      simpa using g1
    · obtain ⟨s1, s2⟩ := TwoObjective.evalFun_ok (hev1 [1] [1] rfl rfl)
      simp only at s1 s2
      have hb : (T1.setOrder 1).1.base = ⟨hessArr exQE (toVec 1 [1]) (toVec 1 [1]), [1], [1]⟩ := by
        rw [e2, hT1, e1]
      have hH : toMatrix 1 1 (hessArr exQE (toVec 1 [1]) (toVec 1 [1])) =
          Matrix.diagonal fun _ => 2 * Real.exp 1 ^ 2 - Real.exp 1 :=
        scalar_hess exQE_smooth (h := fun s => exQ (Real.exp s) 1) (fun u => rfl) exQE_deriv (exQE_deriv2 1)
      have := Taylor.evaluateDk_one hR one_pos one_pos (d := [1]) (by rw [hb]; rfl) (by rw [hb]; rfl) rfl
        (by rw [hb]; rfl) (by rw [hb]; exact (hessArr_posDef exQE_smooth exQE_curv).det_pos.ne')
        (by rw [hb]; rw [e2]; exact s1) (by rw [hb]; rw [e2]; exact s2) (by rw [e2])
      rw [this, hb]
      simp only
      rw [hH, inv_diagonal_one exQE_pos.ne', exQF_gradF]
      simp [toVec]

/-- `set_base_values` of the linear approximation with a free hyperparameter: the Hessian is that of
the function `F` of the free value, the cross Hessian that of the function `G` of the vector value. -/
theorem LinApprox.setBase_freeHyper {T : LinApprox} (hfi : T.inputIsFree = true) (hfh : T.hyperIsFree = true)
    (hF : ContDiff ℝ 2 F) (hev : Evaluates T.inputPar T.hyperPar T.objFn true true F)
    (hG : ContDiff ℝ 2 G) (hevG : Evaluates T.inputPar T.hyperPar T.hyperFn true false G)
    (hn : 0 < n) {x e : List ℝ} (hx : x.length = n) (he : e.length = m)
    (hpc : PositiveCurvature F (toVec n x) (toVec m e)) :
    ∃ l, T.setBaseValues x e none = ({ T with
      inputPar := (setPar T.inputPar x true).1, hyperPar := (setPar T.hyperPar e false).1,
      base := ⟨hessArr F (toVec n x) (toVec m e), x, e⟩, chol := l,
      cross := crossArr G (toVec n x) (toVec m e),
      sens := sensArr n m (hessArr F (toVec n x) (toVec m e))
        (crossArr G (toVec n x) (toVec m e)) }, none) := by
  obtain ⟨s1, s2⟩ := TwoObjective.evalFun_ok (hev x e hx he)
  obtain ⟨-, s3⟩ := TwoObjective.evalFun_ok (hevG x e hx he)
  simp only at s1 s2 s3
  have r1 : setPar (setPar T.inputPar x true).1 x true = setPar T.inputPar x true :=
    setPar_eq (setPar_blank T.inputPar x true).symm s1
  have r2 : setPar (setPar T.hyperPar e true).1 e false = setPar T.hyperPar e false :=
    setPar_eq (setPar_blank T.hyperPar e true).symm s3
  have e1 : ({ T with base := { T.base with inputVal0 := x, hyperVal0 := e } } : LinApprox).setParToBase =
      ({ T with
        inputPar := (setPar T.inputPar x true).1, hyperPar := (setPar T.hyperPar e true).1,
        base := { T.base with inputVal0 := x, hyperVal0 := e } }, none) := by
    simp only [setParToBase, hfi, hfh, andThen, s1, s2]
  have e2 : ({ T with
      inputPar := (setPar T.inputPar x true).1, hyperPar := (setPar T.hyperPar e true).1,
      base := { T.base with inputVal0 := x, hyperVal0 := e } } : LinApprox).setHess none = ({ T with
      inputPar := (setPar T.inputPar x true).1, hyperPar := (setPar T.hyperPar e true).1,
      base := ⟨hessArr F (toVec n x) (toVec m e), x, e⟩ }, none) := by
    have h0 := Taylor.funFreeHessian_base hF (Taylor.evaluates_blank hev
      (setPar_blank T.inputPar x true).symm rfl) hn hx he
    rw [r1] at h0
    simp only [setHess, objective, h0]
    rfl
  obtain ⟨l, hl1, hl2, hl3⟩ := choFactor_ok (H := hessArr F (toVec n x) (toVec m e)) rfl (hessArr_posDef hF hpc)
  obtain ⟨X, hX1, hX2⟩ := choSolve_ok (m := m) (C := crossArr G (toVec n x) (toVec m e)) hl2 rfl hl3
  have hc := hessian12_base hG (Taylor.evaluates_blank hevG (setPar_blank T.inputPar x true).symm
    (setPar_blank T.hyperPar e true).symm) hn hx he
  rw [r1, r2] at hc
  refine ⟨l, ?_⟩
  simp only [setBaseValues, e1, andThen, e2, setChol, hl1, setCross, joint,
    TwoObjective.funHessianFree1Vector2, hc, setSens, hX1, hX2]

/-- The quadratic objective as a function of the logarithm of the hyperparameter; its optimum is
`exp`. -/
def exQL (z : (Fin 1 → ℝ) × (Fin 1 → ℝ)) : ℝ := exQ (z.1 0) (Real.exp (z.2 0))

theorem exQL_smooth : ContDiff ℝ 2 exQL := by
  have h1 : ContDiff ℝ 2 fun z : (Fin 1 → ℝ) × (Fin 1 → ℝ) => Real.exp (z.2 0) :=
    ((contDiff_apply ℝ ℝ 0).comp contDiff_snd).exp
  have h2 : ContDiff ℝ 2 fun z : (Fin 1 → ℝ) × (Fin 1 → ℝ) => z.1 0 :=
    (contDiff_apply ℝ ℝ 0).comp contDiff_fst
  exact ((h2.pow 2).div_const 2).sub (h1.mul h2)

/-- **C58 fails** for `hyper_is_free=True` in the linear approximation: the cross Hessian is computed
in the vector parameterization, at the free value.  The objective is `x² / 2 - ε x` with positive
`ε = exp(f)`, whose optimum is `exp(f)`, at `f = 1` and `x = e`.  The constructor leaves the
hyperparameter at 1 and not at `e`, and the derivative of the optimum, which is `e`, is returned
as 1. -/
theorem C58_free_hyper_counterexample :
    Evaluates (scPar ninf) (scPar (fin 0)) (scFn exQ) true true exQL ∧
    OptimumMap exQL (toVec 1 [1]) (fun f => toVec 1 [Real.exp (f 0)]) ∧
    HasDerivAt (fun f : ℝ => Real.exp f) (Real.exp 1) 1 ∧ Real.exp 1 ≠ 1 ∧
    ∃ T, LinApprox.new (scFn exQ) (scPar ninf) (scPar (fin 0)) [Real.exp 1] [1] true true none none = .ok T ∧
      T.hyperPar.getVector = .ok [1] ∧ T.dinputDhyper.at2 0 0 = 1 := by
  have h0 : (fin 0 : Flt) < pinf := by simp
  have hev : Evaluates (n := 1) (m := 1) (scPar ninf) (scPar (fin 0)) (scFn exQ) true true exQL := by
    have := scFn_evaluates ninf (fin 0) ninf_lt_pinf h0 true true exQ
    simp only [constrainFn_zero, constrainFn_real, if_true] at this
    exact this
  have hevG : Evaluates (n := 1) (m := 1) (scPar ninf) (scPar (fin 0)) (scFn exQ) true false exQF := by
    have := scFn_evaluates ninf (fin 0) ninf_lt_pinf h0 true false exQ
    simp only [constrainFn_real, if_true, Bool.false_eq_true, if_false] at this
    exact this
  have hder : ∀ s, HasDerivAt (fun s => exQ s (Real.exp 1)) (s - Real.exp 1) s := exQ_deriv _
  have hpc : PositiveCurvature exQL (toVec 1 [Real.exp 1]) (toVec 1 [1]) :=
    scalar_curv (h := fun s => exQ s (Real.exp 1)) (h1 := fun s => s - Real.exp 1) (c := 1) hder
      ((hasDerivAt_id _).sub_const _) one_pos
  refine ⟨hev, Filter.Eventually.of_forall fun f => ?_, Real.hasDerivAt_exp 1, by simp, ?_⟩
  · have h := exQ_deriv (Real.exp (f 0)) (Real.exp (f 0))
    rw [sub_self] at h
    exact scalar_crit h
  · obtain ⟨l, hl⟩ := LinApprox.setBase_freeHyper (T := ⟨scPar ninf, scPar (fin 0), true, true, scFn exQ,
      scFn exQ, ⟨⟨[0, 0], []⟩, [], []⟩, ⟨[0, 0], []⟩, ⟨[0, 0], []⟩, ⟨[0, 0], []⟩⟩) rfl rfl
      exQL_smooth hev (exQF_smooth.of_le two_le_infty) hevG one_pos (x := [Real.exp 1]) (e := [1]) rfl rfl hpc
    refine ⟨_, by simp only [LinApprox.new, Option.getD_none, hl]; rfl, ?_, ?_⟩
    · obtain ⟨s1, g1⟩ := scPar_getVector (fin 0) h0 false 1
      rw [Param.mark_plain _ (setPar_plain _ _ _ s1)] at g1
      simpa using g1
    · have hH : toMatrix 1 1 (hessArr exQL (toVec 1 [Real.exp 1]) (toVec 1 [1])) =
          Matrix.diagonal fun _ => 1 :=
        scalar_hess exQL_smooth (h := fun s => exQ s (Real.exp 1)) (fun u => rfl) hder
          ((hasDerivAt_id _).sub_const _)
      have hs := sensArr_at2 (n := 1) (m := 1) (H := hessArr exQL (toVec 1 [Real.exp 1]) (toVec 1 [1]))
        (C := crossArr exQF (toVec 1 [Real.exp 1]) (toVec 1 [1])) 0 0
      rw [hH, inv_diagonal_one one_ne_zero] at hs
      have hC : toMatrix 1 1 (crossArr exQF (toVec 1 [Real.exp 1]) (toVec 1 [1])) 0 0 = -1 := by
        rw [toMatrix, Matrix.of_apply, crossArr, Arr.at2_ofFn2 _ _ _ (by norm_num) (by norm_num)]
        have := congrFun (exQF_gradF (toVec 1 [Real.exp 1]) (toVec 1 [1]) (Pi.single 0 1)) 0
        rw [gradF_fderiv (exQF_smooth.of_le two_le_infty)] at this
        rw [show basis 1 ((0 : Fin 1) : ℕ) = Pi.single 0 1 from basis_eq_single 0]
        rw [show basis 1 ((0 : Fin 1) : ℕ) = Pi.single 0 1 from basis_eq_single 0] at this
        simpa using this
      simp only [LinApprox.dinputDhyper]
      rw [show (0 : ℕ) = ((0 : Fin 1) : ℕ) from rfl, hs]
      simp [Matrix.mul_apply, hC]

/-- `H` is the Hessian of `F` in its first argument. -/
def HessianAt (F : (Fin n → ℝ) × (Fin m → ℝ) → ℝ) (x : Fin n → ℝ) (e : Fin m → ℝ) (H : Arr) : Prop :=
  H.shape = [n, n] ∧ ∀ i j : Fin n, HasDerivAt
    (fun t : ℝ => deriv (fun s : ℝ => F (x + t • Pi.single j 1 + s • Pi.single i 1, e)) 0) (H.at2 i j) 0

theorem deriv_line (hF : ContDiff ℝ 2 F) (y a : Fin n → ℝ) (e : Fin m → ℝ) :
    deriv (fun s : ℝ => F (y + s • a, e)) 0 = fderiv ℝ F (y, e) (a, 0) := by
  have hl : HasDerivAt (fun s : ℝ => ((y + s • a, e) : (Fin n → ℝ) × (Fin m → ℝ))) (a, 0) 0 := by
    have h1 : HasDerivAt (fun s : ℝ => y + s • a) a 0 := by
      simpa using ((hasDerivAt_id (0 : ℝ)).smul_const a).const_add y
    exact h1.prodMk (hasDerivAt_const _ _)
  have h2 : HasFDerivAt F (fderiv ℝ F (y, e)) (y + (0 : ℝ) • a, e) := by
    rw [zero_smul, add_zero]
    exact (hF.differentiable (by norm_num) _).hasFDerivAt
  exact (h2.comp_hasDerivAt (0 : ℝ) hl).deriv

theorem deriv_line2 (hF : ContDiff ℝ 2 F) (y a b : Fin n → ℝ) (e : Fin m → ℝ) :
    HasDerivAt (fun t : ℝ => fderiv ℝ F (y + t • b, e) (a, 0))
      (fderiv ℝ (fderiv ℝ F) (y, e) (b, 0) (a, 0)) 0 := by
  have hl : HasDerivAt (fun s : ℝ => ((y + s • b, e) : (Fin n → ℝ) × (Fin m → ℝ))) (b, 0) 0 := by
    have h1 : HasDerivAt (fun s : ℝ => y + s • b) b 0 := by
      simpa using ((hasDerivAt_id (0 : ℝ)).smul_const b).const_add y
    exact h1.prodMk (hasDerivAt_const _ _)
  have h3 : HasFDerivAt (fderiv ℝ F) (fderiv ℝ (fderiv ℝ F) (y, e)) (y + (0 : ℝ) • b, e) := by
    rw [zero_smul, add_zero]
    exact ((hF.fderiv_right (m := 1) (by norm_num)).differentiable (by norm_num) _).hasFDerivAt
  exact (ContinuousLinearMap.apply ℝ ℝ ((a, 0) : (Fin n → ℝ) × (Fin m → ℝ))).hasFDerivAt.comp_hasDerivAt
    (0 : ℝ) (h3.comp_hasDerivAt (0 : ℝ) hl)

theorem HessianAt.eq (hF : ContDiff ℝ 2 F) {x : Fin n → ℝ} {e : Fin m → ℝ} {H : Arr}
    (h : HessianAt F x e H) : toMatrix n n H = toMatrix n n (hessArr F x e) := by
  ext i j
  have h2 := h.2 i j
  simp only [deriv_line hF] at h2
  have h5 := h2.unique (deriv_line2 hF x (Pi.single i 1) (Pi.single j 1) e)
  rw [toMatrix_hessArr, toMatrix, Matrix.of_apply, h5, basis_eq_single, basis_eq_single]

/-- **C58**, the part that holds: with any flags, if `set_base_values` is given the Hessian in the
declared parameterization then the derivatives of every order are those of the optimum in that
parameterization, and the parameters hold the base values afterwards.  (For `input_is_free=True` and
any `hyper_is_free` the Hessian need not be given: C55.) -/
theorem C58_supplied_hessian_partial (hF : ContDiff ℝ ∞ F) (hn : 0 < n) (hm : 0 < m)
    (objFn : Param → Param → Py Arr) (inputPar hyperPar : Param) (inputIsFree hyperIsFree : Bool)
    (hev : Evaluates inputPar hyperPar objFn inputIsFree hyperIsFree F)
    (x0 e0 : List ℝ) (order : ℕ) (hess0 : Option Arr) (T0 : Taylor)
    (hnew : Taylor.new objFn inputPar hyperPar x0 e0 order inputIsFree hyperIsFree hess0 none = .ok T0)
    (before after : List Taylor.Op) (hafter : ∀ op ∈ after, op.keepsBase)
    (x e : List ℝ) (hx : x.length = n) (he : e.length = m) (H : Arr)
    (hpc : PositiveCurvature F (toVec n x) (toVec m e))
    (hH : HessianAt F (toVec n x) (toVec m e) H) :
    ((before.foldl Taylor.step T0).setBaseValues x e (some H)).2 = none ∧
    let T := after.foldl Taylor.step ((before.foldl Taylor.step T0).setBaseValues x e (some H)).1
    ∀ d : List ℝ, d.length = m → ∀ η, OptimumPath F (toVec n x) (toVec m e) (toVec m d) η →
      ∀ k : ℕ, 1 ≤ k → k ≤ T.order →
        ∃ T', T.evaluateDk d k = (T', .ok (List.ofFn (iteratedDeriv k η 0))) ∧
          setPar T.inputPar x inputIsFree = (T'.inputPar, none) ∧
          setPar T.hyperPar e hyperIsFree = (T'.hyperPar, none) ∧
          T'.inputPar.Plain ∧ T'.hyperPar.Plain := by
  have hF2 := hF.of_le two_le_infty
  have hHe := hH.eq hF2
  have hI := Taylor.Inv.run hF before (Taylor.Inv.of_new hF hev hnew)
  obtain ⟨l, e1⟩ := Taylor.setBase_supplied hI hx he hH.1 (by rw [hHe]; exact hessArr_posDef hF2 hpc)
  have hI1 := hI.step hF (.setBase x e (some H))
  rw [Taylor.step] at hI1
  refine ⟨by rw [e1], ?_⟩
  intro T d hd η hη k hk hko
  have hI2 : Taylor.Inv F inputIsFree hyperIsFree T := Taylor.Inv.run hF after hI1
  have hB : Taylor.Based F x e T := by
    refine Taylor.Based.of_base
      (T := ((before.foldl Taylor.step T0).setBaseValues x e (some H)).1) ?_ (Taylor.run_base after _ hafter)
    rw [e1]
    exact ⟨rfl, rfl, hH.1, hHe⟩
  exact hB.evaluateDk hF hn hm hI2 hx he hpc hd hη hk hko

/-- The hypotheses are met by the object of the counterexample, with the Hessian 1 supplied. -/
example : (∃ T, Taylor.new (scFn exQ) (scPar (fin 0)) (scPar ninf) [1] [1] 1 false false none none = .ok T) ∧
    Evaluates (scPar (fin 0)) (scPar ninf) (scFn exQ) false false exQF ∧
    PositiveCurvature exQF (toVec 1 [1]) (toVec 1 [1]) ∧
    HessianAt exQF (toVec 1 [1]) (toVec 1 [1]) ⟨[1, 1], [1]⟩ := by
  obtain ⟨h1, -, -, -, T, h2, -⟩ := C58_vector_input_counterexample
  refine ⟨⟨T, h2⟩, h1, exQF_curv 1 1, rfl, ?_⟩
  intro i j
  rw [Subsingleton.elim i 0, Subsingleton.elim j 0]
  have h3 : (fun t : ℝ => deriv (fun s : ℝ => exQF (toVec 1 [1] + t • Pi.single (0 : Fin 1) 1 +
      s • Pi.single (0 : Fin 1) 1, toVec 1 [1])) 0) = fun t => t := by
    funext t
    have : (fun s : ℝ => exQF (toVec 1 [1] + t • Pi.single (0 : Fin 1) 1 +
      s • Pi.single (0 : Fin 1) 1, toVec 1 [1])) = fun s => exQ (1 + t + s) 1 := by
      funext s
      simp [exQF, toVec]
    rw [this]
    have h4 := HasDerivAt.comp (0 : ℝ) (exQ_deriv 1 (1 + t + 0)) ((hasDerivAt_id (0 : ℝ)).const_add (1 + t))
    exact (h4.congr_deriv (by ring)).deriv
  rw [h3]
  exact hasDerivAt_id _

/-! ### C88 -/

/-- The constructor with a functor for the dependence on the hyperparameter. -/
theorem Taylor.new_functor (hF : ContDiff ℝ ∞ F) (hG : ContDiff ℝ ∞ G) (hn : 0 < n)
    {objFn hyperFn : Param → Param → Py Arr} {inputPar hyperPar : Param} {fh : Bool}
    (hev : Evaluates inputPar hyperPar objFn true fh F)
    (hevG : Evaluates inputPar hyperPar hyperFn true fh G)
    {x e : List ℝ} (hx : x.length = n) (he : e.length = m)
    (hpc : PositiveCurvature F (toVec n x) (toVec m e)) {order : ℕ} (ho : 1 ≤ order)
    (hess0 : Option Arr) :
    ∃ T, Taylor.new objFn inputPar hyperPar x e order true fh hess0 (some hyperFn) = .ok T ∧
      Ready G T ∧ T.base = ⟨hessArr F (toVec n x) (toVec m e), x, e⟩ ∧ T.order = order ∧
      (setPar T.inputPar T.base.inputVal0 T.inputIsFree).2 = none ∧
      (setPar T.hyperPar T.base.hyperVal0 T.hyperIsFree).2 = none := by
  obtain ⟨T0, hT0⟩ : ∃ T0, T0 = (⟨inputPar, hyperPar, true, fh, objFn, hyperFn,
    ⟨⟨[0, 0], []⟩, [], []⟩, ⟨[0, 0], []⟩, 0, [], []⟩ : Taylor) := ⟨_, rfl⟩
  obtain ⟨l, e1⟩ := setBase_computed hF (T := T0) (fh := fh) (by rw [hT0]) (by rw [hT0])
    (by rw [hT0]; exact hev) hn hx he hpc
  obtain ⟨T1, hT1⟩ : ∃ T1, T1 = (T0.setBaseValues x e none).1 := ⟨_, rfl⟩
  have b1 : T1.inputPar.blank = inputPar.blank := by
    rw [hT1, e1, hT0]
    exact setPar_blank _ _ _
  have b2 : T1.hyperPar.blank = hyperPar.blank := by
    rw [hT1, e1, hT0]
    exact setPar_blank _ _ _
  have hev1 : Evaluates T1.inputPar T1.hyperPar T1.hyperFn T1.inputIsFree T1.hyperIsFree G := by
    have : T1.hyperFn = hyperFn ∧ T1.inputIsFree = true ∧ T1.hyperIsFree = fh := by
      rw [hT1, e1, hT0]
      exact ⟨rfl, rfl, rfl⟩
    rw [this.1, this.2.1, this.2.2]
    exact Taylor.evaluates_blank hevG b1.symm b2.symm
  obtain ⟨L, e2, hR⟩ := setOrder_ready hG T1 hev1 order ho
  obtain ⟨s1, s2⟩ := TwoObjective.evalFun_ok (hev1 x e hx he)
  simp only at s1 s2
  have hb : (T1.setOrder order).1.base = ⟨hessArr F (toVec n x) (toVec m e), x, e⟩ := by
    rw [e2, hT1, e1]
  refine ⟨(T1.setOrder order).1, ?_, hR, hb, by rw [e2], by rw [hb, e2]; exact s1, by rw [hb, e2]; exact s2⟩
  unfold Taylor.new
  simp only [Option.getD_some]
  rw [← hT0, ← hT1, e1]
  simp only
  rw [e2]

/-- **C88 fails** for order 2: the higher order terms leave out the part of the objective that the
functor for the hyperparameter does not contain.  The objective is `x² / 2 + x³ / 6 - ε x`, and the
functor given for its dependence on `ε` is `x² / 2 - ε x`; they differ by `x³ / 6`.  Every path of
optima has second derivative -1 and the method returns 0; without the functor it returns -1. -/
theorem C88_second_order_counterexample :
    (∀ u v, exHF (u, v) = exQF (u, v) + u 0 ^ 3 / 6) ∧
    (∃ T, Taylor.new (scFn exH) (scPar ninf) (scPar ninf) [0] [0] 2 true false none (some (scFn exQ)) =
      .ok T ∧ (T.evaluateDk [1] 2).2 = .ok [0]) ∧
    (∃ T, Taylor.new (scFn exH) (scPar ninf) (scPar ninf) [0] [0] 2 true false none none =
      .ok T ∧ (T.evaluateDk [1] 2).2 = .ok [-1]) ∧
    (∃ η, OptimumPath exHF (toVec 1 [0]) (toVec 1 [0]) (toVec 1 [1]) η) ∧
    ∀ η, OptimumPath exHF (toVec 1 [0]) (toVec 1 [0]) (toVec 1 [1]) η →
      iteratedDeriv 2 η 0 = fun _ => -1 := by
  have hhess : toMatrix 1 1 (hessArr exHF (toVec 1 [0]) (toVec 1 [0])) =
      toMatrix 1 1 (hessArr exQF (toVec 1 [0]) (toVec 1 [0])) := by
    rw [scalar_hess (exHF_smooth.of_le two_le_infty) (h := fun s => exH s 0) (h1 := fun s => s + s ^ 2 / 2)
        (c := 1) (fun u => rfl),
      scalar_hess (exQF_smooth.of_le two_le_infty) (h := fun s => exQ s 0) (h1 := fun s => s - 0)
        (c := 1) (fun u => rfl) (exQ_deriv 0) ((hasDerivAt_id _).sub_const 0)]
    · intro s
      have h := (((hasDerivAt_id s).pow 2).div_const 2).add (((hasDerivAt_id s).pow 3).div_const 6)
      have h' := h.sub ((hasDerivAt_id s).const_mul 0)
      refine (h'.congr_deriv (by simp; ring)).congr_of_eventuallyEq ?_
      exact Filter.Eventually.of_forall fun s => by simp [exH]
    · have h := (hasDerivAt_id (0 : ℝ)).add (((hasDerivAt_id (0 : ℝ)).pow 2).div_const 2)
      refine (h.congr_deriv (by simp)).congr_of_eventuallyEq ?_
      exact Filter.Eventually.of_forall fun s => by simp
  have hpath : ∀ η, OptimumPath exHF (toVec 1 [0]) (toVec 1 [0]) (toVec 1 [1]) η →
      iteratedDeriv 2 η 0 = fun _ => -1 := by
    intro η hη
    have hd1 : ∀ᶠ t in nhds (0 : ℝ), HasDerivAt (fun s => η s 0) (deriv η t 0) t := by
      filter_upwards [hη.smooth] with t ht
      exact hasDerivAt_pi.mp (ht.differentiableAt (by simp)).hasDerivAt 0
    have hd2 : HasDerivAt (fun t => deriv η t 0) (iteratedDeriv 2 η 0 0) 0 := by
      have h1 : ContDiffAt ℝ 1 (deriv η) 0 :=
        (hη.smooth.self_of_nhds.fderiv_right (m := 1)
          (by rw [one_add_one_eq_two]; exact two_le_infty)).clm_apply contDiffAt_const
      rw [iteratedDeriv_succ, iteratedDeriv_one]
      exact hasDerivAt_pi.mp (h1.differentiableAt (by simp)).hasDerivAt 0
    have heq : ∀ᶠ t in nhds (0 : ℝ), η t 0 + η t 0 ^ 2 / 2 = t := by
      filter_upwards [hη.critical] with t ht
      have h1 : (toVec 1 [0] + t • toVec 1 [1]) 0 = t := by simp [toVec]
      have h2 := deriv_line (exHF_smooth.of_le two_le_infty) (η t) (Pi.single 0 1) (toVec 1 [0] + t • toVec 1 [1])
      rw [← fderiv_left (exHF_smooth.of_le two_le_infty), ht] at h2
      have h3 : (fun s : ℝ => exHF (η t + s • Pi.single 0 1, toVec 1 [0] + t • toVec 1 [1])) =
          fun s => exH (η t 0 + s) t := by
        funext s
        simp [exHF, toVec]
      rw [h3] at h2
      have h4 : HasDerivAt (fun s : ℝ => exH (η t 0 + s) t) (η t 0 + η t 0 ^ 2 / 2 - t) 0 := by
        have hi := (hasDerivAt_id (0 : ℝ)).const_add (η t 0)
        have h := ((hi.pow 2).div_const 2).add ((hi.pow 3).div_const 6)
        have h' := h.sub (hi.const_mul t)
        refine (h'.congr_deriv (by simp; ring)).congr_of_eventuallyEq ?_
        exact Filter.Eventually.of_forall fun s => by simp [exH]
      rw [h4.deriv] at h2
      simp at h2
      linarith
    have heq1 : ∀ᶠ t in nhds (0 : ℝ), deriv η t 0 + η t 0 * deriv η t 0 = 1 := by
      filter_upwards [hd1, heq.eventually_nhds] with t h1 h2
      have h3 := h1.add ((h1.pow 2).div_const 2)
      have h4 := (hasDerivAt_id t).congr_of_eventuallyEq (f₁ := (fun s => η s 0) + fun s => η s 0 ^ 2 / 2)
        (by filter_upwards [h2] with s hs; exact hs)
      have h5 := h3.unique h4
      simp at h5
      linarith
    have h0 : η 0 0 = 0 := by rw [hη.start]; rfl
    have h3 := hd2.add (hd1.self_of_nhds.mul hd2)
    have h4 := (hasDerivAt_const (0 : ℝ) (1 : ℝ)).congr_of_eventuallyEq
      (f₁ := (fun t => deriv η t 0) + (fun s => η s 0) * fun t => deriv η t 0)
      (by filter_upwards [heq1] with s hs; exact hs)
    have h5 := h3.unique h4
    have h6 := heq1.self_of_nhds
    rw [h0] at h5 h6
    funext i
    rw [Subsingleton.elim i 0]
    have h7 : deriv η 0 0 = 1 := by linarith
    rw [h7] at h5
    linarith
  obtain ⟨η, hη⟩ := exists_optimumPath exHF_smooth exHF_case.2.1 exHF_case.2.2 (toVec 1 [1])
  refine ⟨fun u v => by simp [exHF, exQF, exH, exQ]; ring, ?_, ?_, ⟨η, hη⟩, hpath⟩
  · obtain ⟨T, h1, h2, h3, h4, h5, h6⟩ := Taylor.new_functor exHF_smooth exQF_smooth one_pos exHF_case.1
      (scFn_real exQ true false) (x := [0]) (e := [0]) rfl rfl exHF_case.2.2 (order := 2) (by norm_num) none
    refine ⟨T, h1, ?_⟩
    have hB : Taylor.Based exQF [0] [0] T := ⟨by rw [h3], by rw [h3], by rw [h3]; rfl, by rw [h3]; exact hhess⟩
    obtain ⟨η', hp1, hp2⟩ := OptimumPath.path exQF_smooth (b := T.base) (d := [1]) one_pos one_pos (by rw [h3]; rfl)
      (by rw [h3]; rfl) rfl hB.shape (by rw [hB.hx, hB.he]; exact hB.hess)
      (by rw [hB.hess]; exact (hessArr_posDef (exQF_smooth.of_le two_le_infty) (exQF_curv 0 0)).det_pos.ne')
      (by rw [hB.hx, hB.he]; exact exQF_path 0)
    have := Taylor.evaluateDk_ok h2 hp1 h5 h6 (k := 2) (by norm_num) (by rw [h4])
    rw [hp2, toVec_one_iter 0 1] at this
    rw [show ((2 : ℕ) : ℤ) = 2 from rfl] at this
    rw [this]
    simp
  · obtain ⟨T, hT, hd⟩ := C55_kth_derivative exHF_smooth one_pos one_pos (scFn exH) (scPar ninf)
      (scPar ninf) false exHF_case.1 [0] [0] rfl rfl exHF_case.2.2 2 (by norm_num) none
    refine ⟨T, hT, ?_⟩
    obtain ⟨T', h1, -⟩ := hd [1] rfl η hη 2 (by norm_num) le_rfl
    rw [show ((2 : ℕ) : ℤ) = 2 from rfl] at h1
    rw [h1, hpath η hη]
    simp

/-- **C88**, the part that holds: let the objective compute `F`, the functor for the hyperparameter
`G`, and let `F(u, v) = G(u, v) + h(u)`.  The first derivative returned is that of the optimum of
`F`. -/
theorem C88_first_order_partial (hF : ContDiff ℝ ∞ F) (hG : ContDiff ℝ ∞ G) (h : (Fin n → ℝ) → ℝ)
    (hFG : ∀ u v, F (u, v) = G (u, v) + h u) (hn : 0 < n) (hm : 0 < m)
    (objFn hyperFn : Param → Param → Py Arr) (inputPar hyperPar : Param) (hyperIsFree : Bool)
    (hev : Evaluates inputPar hyperPar objFn true hyperIsFree F)
    (hevG : Evaluates inputPar hyperPar hyperFn true hyperIsFree G)
    (x e : List ℝ) (hx : x.length = n) (he : e.length = m)
    (hpc : PositiveCurvature F (toVec n x) (toVec m e)) (order : ℕ) (ho : 1 ≤ order)
    (hess0 : Option Arr) :
    ∃ T, Taylor.new objFn inputPar hyperPar x e order true hyperIsFree hess0 (some hyperFn) = .ok T ∧
      ∀ d : List ℝ, d.length = m → ∀ η, OptimumPath F (toVec n x) (toVec m e) (toVec m d) η →
        (T.evaluateDk d 1).2 = .ok (List.ofFn (iteratedDeriv 1 η 0)) := by
  obtain ⟨T, h1, h2, h3, h4, h5, h6⟩ := Taylor.new_functor hF hG hn hev hevG hx he hpc ho hess0
  refine ⟨T, h1, ?_⟩
  intro d hd η hη
  have hF2 := hF.of_le two_le_infty
  have := Taylor.evaluateDk_one h2 hn hm (d := d) (by rw [h3]; exact hx) (by rw [h3]; exact he) hd
    (by rw [h3]; rfl) (by rw [h3]; exact (hessArr_posDef hF2 hpc).det_pos.ne') h5 h6 (by omega)
  rw [this, h3]
  simp only
  rw [← gradF_cross hF2 (hG.of_le two_le_infty) h hFG, hη.first hF2 hpc]

/-- The hypotheses are met by the objects of the counterexample. -/
example : Evaluates (scPar ninf) (scPar ninf) (scFn exH) true false exHF ∧
    Evaluates (scPar ninf) (scPar ninf) (scFn exQ) true false exQF ∧
    (∀ u v, exHF (u, v) = exQF (u, v) + u 0 ^ 3 / 6) ∧
    PositiveCurvature exHF (toVec 1 [0]) (toVec 1 [0]) ∧
    ∃ η, OptimumPath exHF (toVec 1 [0]) (toVec 1 [0]) (toVec 1 [1]) η :=
  ⟨exHF_case.1, scFn_real exQ true false, C88_second_order_counterexample.1, exHF_case.2.2,
    C88_second_order_counterexample.2.2.2.1⟩

end

end LRVB
