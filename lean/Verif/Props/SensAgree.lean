import Verif.Props.Taylor
import Verif.Props.Sensitivity
import Mathlib.LinearAlgebra.Matrix.PosDef

/-!
# C154: the sensitivity classes agree
-/

namespace LRVB

open scoped ContDiff Matrix Topology
open Flt Taylor

noncomputable section

variable {n m : ℕ} {F : (Fin n → ℝ) × (Fin m → ℝ) → ℝ}

/-- The prediction of a linear approximation with sensitivity matrix `S`. -/
theorem predict_eq {S : Arr} (hS : S.shape = [n, m]) {x e new : List ℝ} (hx : x.length = n)
    (he : e.length = m) (hnew : new.length = m) :
    (do
      let d ← vsub new e
      vadd x (← S.mulVec d)) =
    .ok (List.ofFn (toVec n x + toMatrix n m S *ᵥ (toVec m new - toVec m e))) := by
  obtain ⟨d, d1, d2, d3⟩ := vsub_toVec hnew he
  rw [d1, py_ok_bind, mulVec_toMatrix hS d2, py_ok_bind, vadd_toVec hx, d3]

/-- **C154** Let the objective compute a smooth `F(input, hyper)`, with positive curvature in the input
at the base values, which need not be an optimum.  Then the three classes `ParametricSensitivity`,
`ParametricSensitivityLinearApproximation` and `ParametricSensitivityTaylorExpansion` (of any order)
agree: the first two have the same sensitivity matrix and the same predictions, the first
derivative of the third in any direction is this matrix times the direction, and its Taylor series of
degree one is this prediction. -/
theorem C154_classes_agree {K : (Fin n → ℝ) → ℕ → ℝ} {eigh : Eigh} {objFn : Param → Param → Py Arr}
    {inputPar outputPar hyperPar : Param} {conv : Param → Param → Param × Option PyErr}
    {optInput : Option (List ℝ)} {x e : List ℝ} (hF : ContDiff ℝ ∞ F) (hm : 0 < m)
    (hS : SensSetting F F K eigh objFn inputPar outputPar hyperPar conv optInput none x e)
    (hpc : PositiveCurvature F (toVec n x) (toVec m e)) (order : ℕ) (ho : 1 ≤ order)
    (hessL hessT : Option Arr) :
    ∃ S L T, Sens.new objFn inputPar outputPar hyperPar conv optInput none none = .ok S ∧
      LinApprox.new objFn inputPar hyperPar x e true false hessL none = .ok L ∧
      Taylor.new objFn inputPar hyperPar x e order true false hessT none = .ok T ∧
      S.dinputDhyper = L.dinputDhyper ∧ IsMat L.dinputDhyper n m ∧
      (∀ new, S.predictInput new = L.predictInput new) ∧
      ∀ d : List ℝ, d.length = m →
        (T.evaluateDk d 1).2 = L.dinputDhyper.mulVec d ∧
        (T.evaluateSeries d true (some 1)).2 = L.predictInput (List.zipWith (· + ·) e d) := by
  obtain ⟨S, w, h1, -, -, h2, h3, h4, -, -, -⟩ := hS.new_ok none rfl (hessArr_posDef hS.smoothF hpc)
  rw [Option.getD_none] at h2
  obtain ⟨T, t1, t2, t3, t4, -, -, -, -⟩ := Taylor.new_ok hF hS.pos hS.evF hS.lenX hS.lenE hpc ho hessT
  obtain ⟨l, hl⟩ := LinApprox.setBase_ok (T := ⟨inputPar, hyperPar, true, false, objFn,
    objFn, ⟨⟨[0, 0], []⟩, [], []⟩, ⟨[0, 0], []⟩, ⟨[0, 0], []⟩, ⟨[0, 0], []⟩⟩) rfl rfl
    hS.smoothF hS.evF hS.smoothF hS.evF hS.pos hS.lenX hS.lenE none rfl (hessArr_posDef hS.smoothF hpc)
  have hmat := sensArr_isMat (n := n) (m := m) (hessArr F (toVec n x) (toVec m e))
    (crossArr F (toVec n x) (toVec m e))
  refine ⟨S, _, T, h1, by simp only [LinApprox.new, Option.getD_none, hl]; rfl, t1, ?_, ?_, ?_, ?_⟩
  · simp only [Sens.dinputDhyper, LinApprox.dinputDhyper, Option.getD_none, h2]
  · exact hmat
  · intro new
    simp only [Sens.predictInput, LinApprox.predictInput, Option.getD_none, h2, h3, h4]
  · intro d hd
    obtain ⟨s1, s2⟩ := TwoObjective.evalFun_ok (t2.ev x e hS.lenX hS.lenE)
    simp only at s1 s2
    have hone := Taylor.evaluateDk_one t2.ready hS.pos hm (d := d) (by rw [t3.hx]; exact hS.lenX)
      (by rw [t3.he]; exact hS.lenE) hd t3.shape
      (by rw [t3.hess]; exact (hessArr_posDef hS.smoothF hpc).det_pos.ne')
      (by rw [t3.hx, t2.hfi]; exact s1) (by rw [t3.he, t2.hfh]; exact s2) (by omega)
    rw [t3.hess, t3.hx, t3.he] at hone
    have hval : -((toMatrix n n (hessArr F (toVec n x) (toVec m e)))⁻¹ *ᵥ
        fderiv ℝ (gradF F) (toVec n x, toVec m e) (0, toVec m d)) =
        toMatrix n m (sensArr n m (hessArr F (toVec n x) (toVec m e))
          (crossArr F (toVec n x) (toVec m e))) *ᵥ toVec m d := by
      rw [toMatrix_sensArr, Matrix.neg_mulVec, ← Matrix.mulVec_mulVec]
      congr 2
      have hlin := clm_eq_mulVec ((fderiv ℝ (gradF F) (toVec n x, toVec m e)).comp
        (ContinuousLinearMap.inr ℝ (Fin n → ℝ) (Fin m → ℝ)))
        (toMatrix n m (crossArr F (toVec n x) (toVec m e))) (fun i j => by
          rw [toMatrix, Matrix.of_apply, crossArr, Arr.at2_ofFn2 _ _ _ i.2 j.2]
          simp only [ContinuousLinearMap.comp_apply, ContinuousLinearMap.inr_apply]
          rw [gradF_fderiv hS.smoothF, basis_eq_single j])
      exact hlin (toVec m d)
    rw [hval] at hone
    refine ⟨?_, ?_⟩
    · rw [hone]
      simp only [LinApprox.dinputDhyper, Option.getD_none]
      rw [mulVec_toMatrix hmat.2 hd]
    · have hz : (List.zipWith (· + ·) e d).length = m := by simp [hS.lenE, hd]
      have hdiff : toVec m (List.zipWith (· + ·) e d) - toVec m e = toVec m d := by
        funext i
        simp [toVec, List.getD_eq_getElem?_getD, hS.lenE, hd]
      simp only [LinApprox.predictInput, Option.getD_none]
      rw [predict_eq hmat.2 hS.lenX hS.lenE hz, hdiff]
      unfold Taylor.evaluateSeries
      have hc : ¬ ((T.order : ℤ) < 1) := by omega
      simp only [Option.getD_some, show ¬ ((1 : ℤ) ≤ 0) by omega, hc, if_false, hone]
      simp only [Int.toNat_one, Nat.sub_self, List.range_zero, List.map_nil, seriesLoop, if_true, t3.hx]
      rw [vadd, if_pos (by simp [hS.lenX])]
      congr 1
      apply List.ext_getElem
      · simp [hS.lenX]
      · intro i hi1 hi2
        simp only [List.getElem_zipWith, List.getElem_ofFn, Pi.add_apply]
        rw [add_comm]
        congr 1
        have hix : i < x.length := by simp [hS.lenX] at hi2; have := hS.lenX; omega
        simp [toVec, hix]

/-- The hypotheses of C154 are met. -/
example : ∃ eigh, EighContract eigh ∧
    SensSetting exHF exHF (fun u _ => 2 * u 0) eigh (scFn exH) (scPar ninf) (scPar ninf)
      ((scPar ninf).vecP [0]) doubling (some [0]) none [0] [0] ∧
    PositiveCurvature exHF (toVec 1 [0]) (toVec 1 [0]) := by
  obtain ⟨eigh, he⟩ := exists_eigh
  exact ⟨eigh, he, doubling_setting eigh he, exHF_case.2.2⟩

end

end LRVB
