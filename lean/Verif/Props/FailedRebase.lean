import Verif.Props.TaylorFlags
import Verif.Props.SensAgree

/-!
# C160: what a failing `set_base_values` leaves behind
-/

namespace LRVB

open scoped ContDiff Matrix Topology
open Flt Taylor

noncomputable section

/-- A one by one matrix with a negative entry has no Cholesky factorization. -/
theorem choFactor_neg {h : ℝ} (hh : h < 0) : choFactor ⟨[1, 1], [h]⟩ = .error .linAlgError := by
  have h2 : (Arr.transpose ⟨[1, 1], [h]⟩) = ⟨[1, 1], [h]⟩ := by
    simp [Arr.transpose, Arr.ofFn2, Arr.at2]
  have : ¬ ∀ i < 1, 0 < cholPivot (Arr.at2 ⟨[1, 1], [h]⟩) i := by
    intro hc
    have := hc 0 one_pos
    simp [cholPivot, Arr.at2] at this
    linarith
  simp only [choFactor, ne_eq, not_true_eq_false, if_false, h2, cholesky]
  rw [if_neg this]

/-- A step runs only when no error was raised before. -/
theorem andThen_error {σ : Type} {r : σ × Option PyErr} {k : σ → σ × Option PyErr} (P : σ → Prop)
    (h1 : P r.1) (h2 : r.2 = none → (k r.1).2 ≠ none → P (k r.1).1)
    (h : (andThen r k).2 ≠ none) : P (andThen r k).1 := by
  unfold andThen at h ⊢
  cases hr : r.2 with
  | some e => exact h1
  | none =>
    rw [hr] at h
    exact h2 hr h

/-- What a failing `set_base_values(x, e, H)` keeps and what it replaces. -/
theorem LinApprox.failed (T : LinApprox) (x e : List ℝ) (H : Option Arr)
    (hf : (T.setBaseValues x e H).2 ≠ none) :
    (T.setBaseValues x e H).1.sens = T.sens ∧ (T.setBaseValues x e H).1.base.inputVal0 = x ∧
      (T.setBaseValues x e H).1.base.hyperVal0 = e := by
  let P : LinApprox → Prop := fun T' => T'.sens = T.sens ∧ T'.base.inputVal0 = x ∧ T'.base.hyperVal0 = e
  have p0 : ∀ T', P T' → P T'.setParToBase.1 := by
    intro T' h
    unfold LinApprox.setParToBase andThen
    dsimp only
    split <;> exact h
  have p1 : ∀ T', P T' → P (T'.setHess H).1 := by
    intro T' h
    unfold LinApprox.setHess
    cases H with
    | some H => exact h
    | none =>
      dsimp only
      split <;> exact h
  have p2 : ∀ T', P T' → P T'.setChol.1 := by
    intro T' h
    unfold LinApprox.setChol
    split <;> exact h
  have p3 : ∀ T', P T' → P T'.setCross.1 := by
    intro T' h
    unfold LinApprox.setCross
    dsimp only
    split <;> exact h
  have p4 : ∀ T', P T' → T'.setSens.2 ≠ none → P T'.setSens.1 := by
    intro T' h hn
    unfold LinApprox.setSens at hn ⊢
    split
    · exact h
    · rename_i X hX
      rw [hX] at hn
      exact absurd rfl hn
  have hT : P { T with base := { T.base with inputVal0 := x, hyperVal0 := e } } := ⟨rfl, rfl, rfl⟩
  refine andThen_error P (p0 _ hT) (fun _ => ?_) hf
  refine andThen_error P (p1 _ (p0 _ hT)) fun _ => ?_
  refine andThen_error P (p2 _ (p1 _ (p0 _ hT))) fun _ => ?_
  refine andThen_error P (p3 _ (p2 _ (p1 _ (p0 _ hT)))) fun _ => ?_
  exact p4 _ (p3 _ (p2 _ (p1 _ (p0 _ hT))))

/-- A failing `set_optimal_input_par` keeps the sensitivity. -/
theorem Sens.failed (S : Sens) (x : Option (List ℝ)) (H : Option Arr)
    (hf : (S.setOptimal x H).2 ≠ none) : (S.setOptimal x H).1.sens = S.sens := by
  let P : Sens → Prop := fun S' => S'.sens = S.sens
  have p0 : ∀ S', P S' → P (S'.setInput x).1 := by
    intro S' h
    unfold Sens.setInput
    split
    · exact h
    · split <;> exact h
  have p1 : ∀ S', P S' → P (S'.setHess H).1 := by
    intro S' h
    unfold Sens.setHess
    cases H with
    | some H => exact h
    | none =>
      dsimp only
      split <;> exact h
  have p2 : ∀ S', P S' → P S'.setChol.1 := by
    intro S' h
    unfold Sens.setChol
    split <;> exact h
  have p3 : ∀ S', P S' → P S'.setDout.1 := by
    intro S' h
    unfold Sens.setDout
    dsimp only
    split <;> exact h
  have p4 : ∀ S', P S' → P S'.setHyper.1 := by
    intro S' h
    unfold Sens.setHyper
    split <;> exact h
  have p5 : ∀ S', P S' → P S'.setCross.1 := by
    intro S' h
    unfold Sens.setCross
    dsimp only
    split <;> exact h
  have p6 : ∀ S', P S' → P S'.setOutput.1 := by
    intro S' h
    unfold Sens.setOutput
    split <;> exact h
  have p7 : ∀ S', P S' → S'.setSens.2 ≠ none → P S'.setSens.1 := by
    intro S' h hn
    unfold Sens.setSens at hn ⊢
    split
    · exact h
    · rename_i X hX
      rw [hX] at hn
      exact absurd rfl hn
  have hS : P S := rfl
  refine andThen_error P (p0 _ hS) (fun _ => ?_) hf
  refine andThen_error P (p1 _ (p0 _ hS)) fun _ => ?_
  refine andThen_error P (p2 _ (p1 _ (p0 _ hS))) fun _ => ?_
  refine andThen_error P (p3 _ (p2 _ (p1 _ (p0 _ hS)))) fun _ => ?_
  refine andThen_error P (p4 _ (p3 _ (p2 _ (p1 _ (p0 _ hS))))) fun _ => ?_
  refine andThen_error P (p5 _ (p4 _ (p3 _ (p2 _ (p1 _ (p0 _ hS)))))) fun _ => ?_
  refine andThen_error P (p6 _ (p5 _ (p4 _ (p3 _ (p2 _ (p1 _ (p0 _ hS))))))) fun _ => ?_
  exact p7 _ (p6 _ (p5 _ (p4 _ (p3 _ (p2 _ (p1 _ (p0 _ hS)))))))

/-- **C160**, the part that holds: a `set_base_values` or `set_optimal_input_par` that raised, for whatever
reason, has not changed what `get_dinput_dhyper` returns.  Missing: that the predictions are unchanged.
What `ParametricSensitivityLinearApproximation` predicts afterwards is the old derivative applied at the
new base values. -/
theorem C160_derivative_kept_partial :
    (∀ (T : LinApprox) (x e : List ℝ) (H : Option Arr), (T.setBaseValues x e H).2 ≠ none →
      (T.setBaseValues x e H).1.dinputDhyper = T.dinputDhyper ∧
      ∀ new, (T.setBaseValues x e H).1.predictInput new = (do
        let d ← vsub new e
        vadd x (← T.dinputDhyper.mulVec d))) ∧
    ∀ (S : Sens) (x : Option (List ℝ)) (H : Option Arr), (S.setOptimal x H).2 ≠ none →
      (S.setOptimal x H).1.dinputDhyper = S.dinputDhyper := by
  refine ⟨fun T x e H hf => ?_, fun S x H hf => S.failed x H hf⟩
  obtain ⟨h1, h2, h3⟩ := T.failed x e H hf
  refine ⟨h1, fun new => ?_⟩
  rw [LinApprox.predictInput, h1, h2, h3]
  rfl

/-- **C160 fails**: the objective is `x² / 2 - ε x`, the base values are zero, and the object predicts
the optimum 0 at `ε = 0`.  `set_base_values` at the input 5 with a Hessian that is not positive definite
raises, and afterwards the prediction at `ε = 0` is 5. -/
theorem C160_linear_counterexample :
    ∃ T, LinApprox.new (scFn exQ) (scPar ninf) (scPar ninf) [0] [0] true false none none = .ok T ∧
      T.predictInput [0] = .ok [0] ∧
      (T.setBaseValues [5] [0] (some ⟨[1, 1], [-1]⟩)).2 = some .linAlgError ∧
      (T.setBaseValues [5] [0] (some ⟨[1, 1], [-1]⟩)).1.predictInput [0] = .ok [5] := by
  have hsm : ContDiff ℝ 2 exQF := exQF_smooth.of_le two_le_infty
  have hev := scFn_real exQ true false
  obtain ⟨l, hl⟩ := LinApprox.setBase_ok (T := ⟨scPar ninf, scPar ninf, true, false, scFn exQ,
      scFn exQ, ⟨⟨[0, 0], []⟩, [], []⟩, ⟨[0, 0], []⟩, ⟨[0, 0], []⟩, ⟨[0, 0], []⟩⟩) rfl rfl
      hsm hev hsm hev one_pos (x := [0]) (e := [0]) rfl rfl none rfl (hessArr_posDef hsm (exQF_curv 0 0))
  rw [Option.getD_none] at hl
  obtain ⟨T, hT⟩ : ∃ T, T = (LinApprox.setBaseValues ⟨scPar ninf, scPar ninf, true, false, scFn exQ,
      scFn exQ, ⟨⟨[0, 0], []⟩, [], []⟩, ⟨[0, 0], []⟩, ⟨[0, 0], []⟩, ⟨[0, 0], []⟩⟩ [0] [0] none).1 := ⟨_, rfl⟩
  have hmat := sensArr_isMat (n := 1) (m := 1) (hessArr exQF (toVec 1 [0]) (toVec 1 [0]))
    (crossArr exQF (toVec 1 [0]) (toVec 1 [0]))
  have hs : T.sens.shape = [1, 1] := by rw [hT, hl]; exact hmat.2
  have hb : T.base.inputVal0 = [0] ∧ T.base.hyperVal0 = [0] := by rw [hT, hl]; exact ⟨rfl, rfl⟩
  have hflags : T.inputIsFree = true ∧ T.hyperIsFree = false := by rw [hT, hl]; exact ⟨rfl, rfl⟩
  have hbl : T.inputPar.blank = (scPar ninf).blank ∧ T.hyperPar.blank = (scPar ninf).blank := by
    rw [hT, hl]; exact ⟨setPar_blank _ _ _, setPar_blank _ _ _⟩
  have hz : toVec 1 [(0 : ℝ)] - toVec 1 [(0 : ℝ)] = 0 := sub_self _
  have hset : ∀ {p : Param} (a : ℝ) (b : Bool), p.blank = (scPar ninf).blank → (setPar p [a] b).2 = none := by
    intro p a b hp
    have := (scPar_getVector ninf ninf_lt_pinf b a).1
    rw [setPar_eq hp.symm this]
    exact this
  have hfail : (T.setBaseValues [5] [0] (some ⟨[1, 1], [-1]⟩)).2 = some .linAlgError := by
    unfold LinApprox.setBaseValues LinApprox.setParToBase
    simp only [andThen, hset _ _ hbl.1, hset _ _ hbl.2, LinApprox.setHess, LinApprox.setChol,
      choFactor_neg (show (-1 : ℝ) < 0 by norm_num)]
  refine ⟨T, ?_, ?_, hfail, ?_⟩
  · simp only [LinApprox.new, Option.getD_none]
    rw [hl] at hT ⊢
    rw [hT]
  · rw [LinApprox.predictInput, hb.1, hb.2]
    have := predict_eq hs (x := [0]) (e := [0]) (new := [0]) rfl rfl rfl
    rw [this, hz, Matrix.mulVec_zero, add_zero]
    rfl
  · rw [(C160_derivative_kept_partial.1 T [5] [0] _ (by rw [hfail]; simp)).2 [0]]
    have := predict_eq hs (x := [5]) (e := [0]) (new := [0]) rfl rfl rfl
    rw [LinApprox.dinputDhyper, this, hz, Matrix.mulVec_zero, add_zero]
    rfl

/-- **C160 fails** for `ParametricSensitivityTaylorExpansion` too: the Hessian that `set_base_values`
refused is used afterwards.  The derivative of the optimum of `x² / 2 - ε x` is 1, before and after the
change of the base values; after a `set_base_values` that raised, -1 is returned. -/
theorem C160_taylor_counterexample :
    ∃ T, Taylor.new (scFn exQ) (scPar ninf) (scPar ninf) [0] [0] 1 true false none none = .ok T ∧
      (T.evaluateDk [1] 1).2 = .ok [1] ∧
      (T.setBaseValues [0] [0] (some ⟨[1, 1], [-1]⟩)).2 = some .linAlgError ∧
      ((T.setBaseValues [0] [0] (some ⟨[1, 1], [-1]⟩)).1.evaluateDk [1] 1).2 = .ok [-1] := by
  have hev := scFn_real exQ true false
  obtain ⟨T, hT, hd⟩ := C55_kth_derivative exQF_smooth one_pos one_pos (scFn exQ) (scPar ninf)
    (scPar ninf) false hev [0] [0] rfl rfl (exQF_curv 0 0) 1 le_rfl none
  obtain ⟨T', t1, hI, -, ho, -⟩ := Taylor.new_ok exQF_smooth one_pos hev (x := [0]) (e := [0]) rfl rfl
    (exQF_curv 0 0) (order := 1) le_rfl none
  rw [hT] at t1
  cases t1
  have hI1 := hI.step exQF_smooth (.setBase [0] [0] (some ⟨[1, 1], [-1]⟩))
  rw [Taylor.step] at hI1
  have hset : ∀ {U : Taylor}, Inv exQF true false U →
      (setPar U.inputPar [0] U.inputIsFree).2 = none ∧ (setPar U.hyperPar [0] U.hyperIsFree).2 = none := by
    intro U hU
    obtain ⟨a, b⟩ := TwoObjective.evalFun_ok (hU.ev [0] [0] rfl rfl)
    rw [hU.hfi, hU.hfh]
    exact ⟨a, b⟩
  have hfail : T.setBaseValues [0] [0] (some ⟨[1, 1], [-1]⟩) = ({ T with
      inputPar := (setPar T.inputPar [0] T.inputIsFree).1,
      hyperPar := (setPar T.hyperPar [0] T.hyperIsFree).1,
      base := ⟨⟨[1, 1], [-1]⟩, [0], [0]⟩ }, some .linAlgError) := by
    unfold Taylor.setBaseValues Taylor.setParToBase
    simp only [(hset hI).1, (hset hI).2, Taylor.setHess, choFactor_neg (show (-1 : ℝ) < 0 by norm_num)]
  refine ⟨T, hT, ?_, by rw [hfail], ?_⟩
  · obtain ⟨T', h1, -⟩ := hd [1] rfl _ (exQF_path 0) 1 le_rfl le_rfl
    rw [toVec_one_iter 0 0] at h1
    rw [Nat.cast_one] at h1
    rw [h1]; rfl
  · rw [hfail] at hI1 ⊢
    have hH : toMatrix 1 1 ⟨[1, 1], [(-1 : ℝ)]⟩ = Matrix.diagonal fun _ : Fin 1 => (-1 : ℝ) := by
      ext i j
      rw [Subsingleton.elim i 0, Subsingleton.elim j 0]
      simp [toMatrix, Arr.at2]
    have hone := Taylor.evaluateDk_one hI1.ready one_pos one_pos (d := [1]) rfl rfl rfl rfl
      (by simp only [hH]; simp) (hset hI1).1 (hset hI1).2 (by simp only; omega)
    rw [hone]
    simp only [hH]
    rw [inv_diagonal_one (by norm_num), exQF_gradF]
    simp [toVec]

end

end LRVB
