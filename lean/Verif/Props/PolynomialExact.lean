import Verif.Props.TaylorError
import Mathlib.Algebra.Polynomial.Derivative
import Mathlib.Analysis.Calculus.Deriv.Polynomial
import Mathlib.Analysis.Calculus.ContDiff.Polynomial
import Mathlib.RingTheory.Polynomial.Basic

/-!
# C189: predictions are exact when the optimum is a polynomial; C190: the declared order does not matter

`OptimumMap`, `OptimumPath`, `PositiveCurvature` and `Evaluates` are in `Spec/Optimum.lean`.
-/

namespace LRVB

open scoped ContDiff Topology
open Flt Taylor

noncomputable section

variable {n m : ℕ} {F : (Fin n → ℝ) × (Fin m → ℝ) → ℝ}

/-! ### Polynomial curves -/

theorem iteratedDeriv_polynomial : ∀ (k : ℕ) (Q : Fin n → Polynomial ℝ),
    iteratedDeriv k (fun t : ℝ => fun i => (Q i).eval t) = fun t i => (Polynomial.derivative^[k] (Q i)).eval t
  | 0, Q => by rw [iteratedDeriv_zero]; rfl
  | k + 1, Q => by
    have hd : deriv (fun t : ℝ => fun i => (Q i).eval t) = fun t i => (Q i).derivative.eval t := by
      funext t
      exact (hasDerivAt_pi.2 fun i => (Q i).hasDerivAt t).deriv
    rw [iteratedDeriv_succ', hd, iteratedDeriv_polynomial k fun i => (Q i).derivative]
    rfl

theorem taylorPoly_polynomial (Q : Fin n → Polynomial ℝ) {deg : ℕ} (hQ : ∀ i, (Q i).natDegree ≤ deg) :
    (fun i => (Q i).eval 0) + taylorPoly (fun t : ℝ => fun i => (Q i).eval t) deg = fun i => (Q i).eval 1 := by
  funext i
  have hk : ∀ k, ((1 / (k.factorial : ℝ)) • iteratedDeriv k (fun t : ℝ => fun i => (Q i).eval t) 0) i = (Q i).coeff k := by
    intro k
    rw [iteratedDeriv_polynomial, Pi.smul_apply]
    show _ • Polynomial.eval 0 _ = _
    rw [← Polynomial.coeff_zero_eq_eval_zero, Polynomial.coeff_iterate_derivative,
      zero_add, Nat.descFactorial_self, nsmul_eq_mul, smul_eq_mul]
    have : (k.factorial : ℝ) ≠ 0 := by exact_mod_cast k.factorial_ne_zero
    field_simp
  rw [Pi.add_apply, taylorPoly, Finset.sum_apply, Finset.sum_congr rfl fun k _ => hk k,
    Polynomial.eval_eq_sum_range' (Nat.lt_succ_of_le (hQ i)) 1, ← Polynomial.coeff_zero_eq_eval_zero]
  simp only [one_pow, mul_one]
  rw [Finset.sum_range_succ', add_comm, Finset.range_eq_Ico, Finset.sum_Ico_add' (fun k => (Q i).coeff k) 0 deg 1]
  rfl

/-- The polynomial along a line. -/
def lineOf (p : MvPolynomial (Fin m) ℝ) (v d : Fin m → ℝ) : Polynomial ℝ :=
  MvPolynomial.aeval (fun i => Polynomial.C (v i) + Polynomial.C (d i) * Polynomial.X) p

theorem lineOf_eval (p : MvPolynomial (Fin m) ℝ) (v d : Fin m → ℝ) (t : ℝ) :
    (lineOf p v d).eval t = MvPolynomial.eval (v + t • d) p := by
  induction p using MvPolynomial.induction_on with
  | C a => simp [lineOf]
  | add p q hp hq =>
    rw [lineOf] at hp hq ⊢
    rw [map_add, Polynomial.eval_add, hp, hq, map_add]
  | mul_X p i hp =>
    rw [lineOf] at hp ⊢
    rw [map_mul, Polynomial.eval_mul, hp, map_mul, MvPolynomial.aeval_X, MvPolynomial.eval_X]
    rw [Polynomial.eval_add, Polynomial.eval_mul, Polynomial.eval_C, Polynomial.eval_C, Polynomial.eval_X, Pi.add_apply,
      Pi.smul_apply, smul_eq_mul, mul_comm t]

theorem lineOf_natDegree (p : MvPolynomial (Fin m) ℝ) (v d : Fin m → ℝ) : (lineOf p v d).natDegree ≤ p.totalDegree := by
  have := MvPolynomial.aeval_natDegree_le p le_rfl
    (fun i => Polynomial.C (v i) + Polynomial.C (d i) * Polynomial.X) (n := 1) fun i => by
      refine (Polynomial.natDegree_add_le _ _).trans (max_le (by simp) ?_)
      exact (Polynomial.natDegree_C_mul_le _ _).trans Polynomial.natDegree_X_le
  rwa [mul_one] at this

/-! ### C189 -/

/-- **C189** Let the objective compute a smooth `F(input, hyper)`, with positive curvature in the input at the base values,
and let the optimum near the base hyperparameter be a polynomial `p` in the hyperparameter.  The constructor of the Taylor
expansion succeeds, and for every direction `d`, however long, `evaluate_taylor_series(d, max_order=deg)` is the value of
the polynomial at `e + d`, for every `deg` from the degree of the polynomial to the declared order. -/
theorem C189_polynomial_exact (hF : ContDiff ℝ ∞ F) (hn : 0 < n) (hm : 0 < m)
    (objFn : Param → Param → Py Arr) (inputPar hyperPar : Param) (hyperIsFree : Bool)
    (hev : Evaluates inputPar hyperPar objFn true hyperIsFree F)
    (x e : List ℝ) (hx : x.length = n) (he : e.length = m)
    (hpc : PositiveCurvature F (toVec n x) (toVec m e)) (order : ℕ) (ho : 1 ≤ order) (hess0 : Option Arr)
    (p : Fin n → MvPolynomial (Fin m) ℝ) (hbase : (fun i => MvPolynomial.eval (toVec m e) (p i)) = toVec n x)
    (hopt : OptimumMap F (toVec m e) fun v i => MvPolynomial.eval v (p i)) :
    ∃ T, Taylor.new objFn inputPar hyperPar x e order true hyperIsFree hess0 none = .ok T ∧
      ∀ d : List ℝ, d.length = m → ∀ deg : ℕ, 1 ≤ deg → deg ≤ order → (∀ i, (p i).totalDegree ≤ deg) →
        (T.evaluateSeries d true (some deg)).2 =
          .ok (List.ofFn fun i => MvPolynomial.eval (toVec m e + toVec m d) (p i)) := by
  obtain ⟨T, h1, h2, -⟩ := C56_taylor_series hF hn hm objFn inputPar hyperPar hyperIsFree hev x e hx he hpc order ho hess0
  refine ⟨T, h1, fun d hd deg hdeg hdo hp => ?_⟩
  set Q : Fin n → Polynomial ℝ := fun i => lineOf (p i) (toVec m e) (toVec m d) with hQ
  have hQe : ∀ t : ℝ, (fun i => (Q i).eval t) = fun i => MvPolynomial.eval (toVec m e + t • toVec m d) (p i) := by
    intro t
    funext i
    exact lineOf_eval _ _ _ t
  have h0 : (fun i => (Q i).eval 0) = toVec n x := by rw [hQe, zero_smul, add_zero, hbase]
  have hpath : OptimumPath F (toVec n x) (toVec m e) (toVec m d) fun t i => (Q i).eval t := by
    refine ⟨.of_forall fun t => ?_, h0, ?_⟩
    · exact contDiffAt_pi.2 fun i => by simpa using ((Q i).contDiff_aeval (𝕜 := ℝ) ∞).contDiffAt
    · have hc : Filter.Tendsto (fun t : ℝ => toVec m e + t • toVec m d) (𝓝 0) (𝓝 (toVec m e)) := by
        have : Continuous fun t : ℝ => toVec m e + t • toVec m d := by fun_prop
        simpa using this.tendsto 0
      filter_upwards [hc.eventually hopt] with t ht
      rw [hQe]
      exact ht
  rw [((h2 d hd _ hpath).1 deg hdeg hdo).1, ← h0, taylorPoly_polynomial Q fun i => (lineOf_natDegree _ _ _).trans (hp i), hQe 1,
    one_smul]

/-- **C189** for the linear approximation: if the optimum near the base hyperparameter is an affine function of the
hyperparameter, the prediction is the value of this function, however far the new hyperparameter is away. -/
theorem C189_affine_exact (hF : ContDiff ℝ 2 F) (hn : 0 < n)
    (objFn : Param → Param → Py Arr) (inputPar hyperPar : Param)
    (hev : Evaluates inputPar hyperPar objFn true false F)
    (x e : List ℝ) (hx : x.length = n) (he : e.length = m)
    (hpc : PositiveCurvature F (toVec n x) (toVec m e)) (hess0 : Option Arr) (A : (Fin m → ℝ) →L[ℝ] (Fin n → ℝ))
    (hopt : OptimumMap F (toVec m e) fun v => toVec n x + A (v - toVec m e)) :
    ∃ T, LinApprox.new objFn inputPar hyperPar x e true false hess0 none = .ok T ∧
      ∀ new : List ℝ, new.length = m →
        T.predictInput new = .ok (List.ofFn (toVec n x + A (toVec m new - toVec m e))) := by
  obtain ⟨T, h1, h2, -⟩ := C51_linear_approximation hF hF (fun _ => 0) (fun u v => by simp) hn objFn none
    inputPar hyperPar hev hev x e hx he hpc hess0
  refine ⟨T, h1, fun new hnew => ?_⟩
  have hder : HasFDerivAt (fun v => toVec n x + A (v - toVec m e)) A (toVec m e) := by
    have := (A.hasFDerivAt (x := toVec m e)).sub_const (A (toVec m e))
    simp only [← map_sub] at this
    exact this.const_add (toVec n x)
  obtain ⟨B, hB, -, hp⟩ := h2.2 _ hder.continuousAt (by simp) hopt
  rw [hp new hnew, hB.unique hder]

/-! ### C190 -/

/-- **C190** Let the objective compute a smooth `F(input, hyper)`, and let the base input be a critical point at the base
hyperparameter, with positive curvature.  Two expansions with the same base values and any declared orders, whatever calls
that keep the base values came in between, give the same derivatives and the same series up to the smaller order. -/
theorem C190_order_does_not_matter (hF : ContDiff ℝ ∞ F) (hn : 0 < n) (hm : 0 < m)
    (objFn : Param → Param → Py Arr) (inputPar hyperPar : Param) (hyperIsFree : Bool)
    (hev : Evaluates inputPar hyperPar objFn true hyperIsFree F)
    (x e : List ℝ) (hx : x.length = n) (he : e.length = m)
    (hcrit : fderiv ℝ (fun u => F (u, toVec m e)) (toVec n x) = 0)
    (hpc : PositiveCurvature F (toVec n x) (toVec m e)) (order1 order2 : ℕ) (ho1 : 1 ≤ order1) (ho2 : 1 ≤ order2)
    (hess1 hess2 : Option Arr) (calls1 calls2 : List Taylor.Op) (h1 : ∀ op ∈ calls1, op.keepsBase)
    (h2 : ∀ op ∈ calls2, op.keepsBase) :
    ∃ S1 S2, Taylor.new objFn inputPar hyperPar x e order1 true hyperIsFree hess1 none = .ok S1 ∧
      Taylor.new objFn inputPar hyperPar x e order2 true hyperIsFree hess2 none = .ok S2 ∧
      let T1 := calls1.foldl Taylor.step S1
      let T2 := calls2.foldl Taylor.step S2
      ∀ d : List ℝ, d.length = m → ∀ k : ℕ, 1 ≤ k → k ≤ T1.order → k ≤ T2.order →
        (∃ v, (T1.evaluateDk d k).2 = .ok v) ∧ (T1.evaluateDk d k).2 = (T2.evaluateDk d k).2 ∧
        ∀ off, (∃ v, (T1.evaluateSeries d off (some k)).2 = .ok v) ∧
          (T1.evaluateSeries d off (some k)).2 = (T2.evaluateSeries d off (some k)).2 := by
  obtain ⟨S1, a1, a2, a3, a4, -, -, -, -⟩ := Taylor.new_ok hF hn hev hx he hpc ho1 hess1
  obtain ⟨S2, b1, b2, b3, b4, -, -, -, -⟩ := Taylor.new_ok hF hn hev hx he hpc ho2 hess2
  refine ⟨S1, S2, a1, b1, ?_⟩
  intro T1 T2 d hd k hk hk1 hk2
  have hI1 : Inv F true hyperIsFree T1 := Inv.run hF calls1 a2
  have hI2 : Inv F true hyperIsFree T2 := Inv.run hF calls2 b2
  have hB1 : Based F x e T1 := Based.of_base a3 (run_base calls1 _ h1)
  have hB2 : Based F x e T2 := Based.of_base b3 (run_base calls2 _ h2)
  obtain ⟨η, hη⟩ := exists_optimumPath hF hcrit hpc (toVec m d)
  obtain ⟨_, g1, -⟩ := hB1.evaluateDk hF hn hm hI1 hx he hpc hd hη hk hk1
  obtain ⟨_, g2, -⟩ := hB2.evaluateDk hF hn hm hI2 hx he hpc hd hη hk hk2
  have s1 := hB1.evaluateSeries hF hn hm hI1 hx he hpc hd hη hk hk1 (some k) rfl
  have s2 := hB2.evaluateSeries hF hn hm hI2 hx he hpc hd hη hk hk2 (some k) rfl
  refine ⟨⟨_, by rw [g1]⟩, by rw [g1, g2], fun off => ?_⟩
  cases off
  · exact ⟨⟨_, s1.2⟩, s1.2.trans s2.2.symm⟩
  · exact ⟨⟨_, s1.1⟩, s1.1.trans s2.1.symm⟩

/-! ### Examples -/

/-- `(x - ε²)² / 2`, with optimum `ε²`. -/
def exSq (x ε : ℝ) : ℝ := (x - ε ^ 2) ^ 2 / 2

/-- ... as a function of vectors of length 1. -/
def exSqF (z : (Fin 1 → ℝ) × (Fin 1 → ℝ)) : ℝ := exSq (z.1 0) (z.2 0)

theorem exSq_deriv (s ε : ℝ) : HasDerivAt (fun s : ℝ => exSq s ε) (s - ε ^ 2) s := by
  have h := (((hasDerivAt_id s).sub_const (ε ^ 2)).pow 2).div_const 2
  refine (h.congr_deriv (by simp)).congr_of_eventuallyEq ?_
  exact Filter.Eventually.of_forall fun s => by simp [exSq]

theorem exSq_crit (v : Fin 1 → ℝ) :
    fderiv ℝ (fun u => exSqF (u, v)) (fun _ => (v 0) ^ 2) = 0 := by
  have h : HasDerivAt (fun s : ℝ => exSq s (v 0)) 0 ((v 0) ^ 2) := (exSq_deriv _ _).congr_deriv (by ring)
  have := scalar_crit h
  rwa [show toVec 1 [(v 0) ^ 2] = fun _ => (v 0) ^ 2 from by funext i; rw [Subsingleton.elim i 0]; rfl] at this

/-- The hypotheses of C189 and C190 are met by `(x - ε²)² / 2` at `x = ε = 1`: the expansion of order 3, in every direction, with
degree 2 or 3, gives `(1 + d)²`. -/
example : ContDiff ℝ ∞ exSqF ∧ Evaluates (scPar ninf) (scPar ninf) (scFn exSq) true false exSqF ∧
    fderiv ℝ (fun u => exSqF (u, toVec 1 [1])) (toVec 1 [1]) = 0 ∧
    PositiveCurvature exSqF (toVec 1 [1]) (toVec 1 [1]) ∧
    ∃ p : Fin 1 → MvPolynomial (Fin 1) ℝ, (fun i => MvPolynomial.eval (toVec 1 [1]) (p i)) = toVec 1 [1] ∧
      OptimumMap exSqF (toVec 1 [1]) (fun v i => MvPolynomial.eval v (p i)) ∧ ∀ i, (p i).totalDegree ≤ 2 := by
  have hc : fderiv ℝ (fun u => exSqF (u, toVec 1 [1])) (toVec 1 [1]) = 0 := by
    have := exSq_crit (toVec 1 [1])
    rwa [show (fun _ : Fin 1 => (toVec 1 [1] 0) ^ 2) = toVec 1 [1] from by
      funext i; rw [Subsingleton.elim i 0]; simp [toVec]] at this
  refine ⟨?_, scFn_real exSq true false, hc, ?_, fun _ => MvPolynomial.X 0 ^ 2, ?_, .of_forall fun v => ?_, fun i => ?_⟩
  · have h1 : ContDiff ℝ ∞ fun z : (Fin 1 → ℝ) × (Fin 1 → ℝ) => z.1 0 := (contDiff_apply ℝ ℝ 0).comp contDiff_fst
    have h2 : ContDiff ℝ ∞ fun z : (Fin 1 → ℝ) × (Fin 1 → ℝ) => z.2 0 := (contDiff_apply ℝ ℝ 0).comp contDiff_snd
    exact ((h1.sub (h2.pow 2)).pow 2).div_const 2
  · refine scalar_curv (h := fun s => exSq s 1) (h1 := fun s => s - 1 ^ 2) (c := 1) (fun s => exSq_deriv s 1) ?_ one_pos
    exact (hasDerivAt_id (1 : ℝ)).sub_const _
  · funext i
    rw [Subsingleton.elim i 0]
    simp [toVec]
  · simpa using exSq_crit v
  · exact (MvPolynomial.totalDegree_pow _ _).trans (by simp)

end

end LRVB
