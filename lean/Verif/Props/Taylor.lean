import Verif.Lemmas.ExScalar

/-!
# C55, C56: the Taylor expansion of the optimum

`OptimumPath F x e d η` and `PositiveCurvature` are in `Spec/Optimum.lean`.
-/

namespace LRVB

open scoped ContDiff Matrix
open Flt

noncomputable section

variable {n m : ℕ} {F : (Fin n → ℝ) × (Fin m → ℝ) → ℝ}

namespace Taylor

theorem new_ok (hF : ContDiff ℝ ∞ F) (hn : 0 < n) {objFn : Param → Param → Py Arr}
    {inputPar hyperPar : Param} {fh : Bool} (hev : Evaluates inputPar hyperPar objFn true fh F)
    {x e : List ℝ} (hx : x.length = n) (he : e.length = m)
    (hpc : PositiveCurvature F (toVec n x) (toVec m e)) {order : ℕ} (ho : 1 ≤ order)
    (hess0 : Option Arr) :
    ∃ T, Taylor.new objFn inputPar hyperPar x e order true fh hess0 none = .ok T ∧
      Inv F true fh T ∧ Based F x e T ∧ T.order = order ∧
      setPar inputPar x true = (T.inputPar, none) ∧ setPar hyperPar e fh = (T.hyperPar, none) ∧
      T.inputPar.blank = inputPar.blank ∧ T.hyperPar.blank = hyperPar.blank := by
  obtain ⟨T0, hT0⟩ : ∃ T0, T0 = (⟨inputPar, hyperPar, true, fh, objFn, objFn,
    ⟨⟨[0, 0], []⟩, [], []⟩, ⟨[0, 0], []⟩, 0, [], []⟩ : Taylor) := ⟨_, rfl⟩
  obtain ⟨s1, s2⟩ := TwoObjective.evalFun_ok (hev x e hx he)
  simp only at s1 s2
  have hI : Inv F true fh T0 := by
    subst hT0
    exact Inv.of_evaluates rfl rfl rfl hev rfl
  obtain ⟨l, e1⟩ := setBase_computed hF (T := T0) (fh := fh) (by rw [hT0]) (by rw [hT0])
    (by rw [hT0]; exact hev) hn hx he hpc
  have hI1 := hI.step hF (.setBase x e none)
  rw [Taylor.step, e1] at hI1
  obtain ⟨L, e2, -⟩ := setOrder_ready hF _ (by rw [hI1.same, hI1.hfi, hI1.hfh]; exact hI1.ev) order ho
  have hI2 := hI1.step hF (.setOrder order)
  rw [Taylor.step, e2] at hI2
  refine ⟨_, ?_, hI2, ⟨rfl, rfl, rfl, rfl⟩, rfl, ?_, ?_, ?_, ?_⟩
  · unfold Taylor.new
    simp only [Option.getD_none]
    rw [← hT0, e1]
    simp only
    rw [e2]
  all_goals simp only [hT0]
  · exact Prod.ext rfl s1
  · exact Prod.ext rfl s2
  · exact setPar_blank _ _ _
  · exact setPar_blank _ _ _

/-- Whatever its arguments, a constructed object satisfies the invariant. -/
theorem Inv.of_new (hF : ContDiff ℝ ∞ F) {objFn : Param → Param → Py Arr} {inputPar hyperPar : Param}
    {fi fh : Bool} (hev : Evaluates inputPar hyperPar objFn fi fh F) {x e : List ℝ} {order : ℕ}
    {hess0 : Option Arr} {T : Taylor}
    (h : Taylor.new objFn inputPar hyperPar x e order fi fh hess0 none = .ok T) : Inv F fi fh T := by
  have hI : Inv F fi fh (⟨inputPar, hyperPar, fi, fh, objFn, objFn,
      ⟨⟨[0, 0], []⟩, [], []⟩, ⟨[0, 0], []⟩, 0, [], []⟩ : Taylor) :=
    Inv.of_evaluates rfl rfl rfl hev rfl
  have h2 := (hI.step hF (.setBase x e none)).step hF (.setOrder order)
  unfold Taylor.new at h
  simp only [Option.getD_none] at h
  split at h
  · exact absurd h (by simp)
  · split at h
    · exact absurd h (by simp)
    · simp only [Except.ok.injEq] at h
      rw [← h]
      exact h2

/-- The loop of `evaluate_taylor_series`. -/
theorem seriesLoop_ok {d : List ℝ} (v : ℕ → Fin n → ℝ) (P : Taylor → Prop) :
    ∀ (ks : List ℕ) (T : Taylor) (acc : Fin n → ℝ), P T →
      (∀ T, P T → ∀ k ∈ ks, ∃ T', T.evaluateDk d k = (T', .ok (List.ofFn (v k))) ∧ P T') →
      ∃ T', T.seriesLoop d ks (List.ofFn acc) =
        (T', .ok (List.ofFn (acc + (ks.map fun k => (1 / (k.factorial : ℝ)) • v k).sum))) ∧ P T' := by
  intro ks
  induction ks with
  | nil =>
    intro T acc hP _
    exact ⟨T, by simp [seriesLoop], hP⟩
  | cons k ks ih =>
    intro T acc hP h
    obtain ⟨T1, h1, hP1⟩ := h T hP k (List.mem_cons_self ..)
    have hadd : vadd (List.ofFn acc) (vscale (1 / (k.factorial : ℝ)) (List.ofFn (v k))) =
        .ok (List.ofFn (acc + (1 / (k.factorial : ℝ)) • v k)) := by
      rw [vscale_ofFn, vadd, if_pos (by simp)]
      congr 1
      apply List.ext_getElem <;> simp
    obtain ⟨T2, h2, hP2⟩ := ih T1 (acc + (1 / (k.factorial : ℝ)) • v k) hP1
      (fun T hT k hk => h T hT k (List.mem_cons_of_mem _ hk))
    refine ⟨T2, ?_, hP2⟩
    unfold seriesLoop
    simp only [h1, py_ok_bind, hadd, h2]
    rw [List.map_cons, List.sum_cons, add_assoc]

end Taylor

open Taylor

/-! ### C55 -/

/-- **C55** Let the objective compute a smooth `F(input, hyper)`, with positive curvature in the input
at the base values.  The constructor succeeds, and for every direction `d`, every smooth path `η` of
optima in direction `d`, and every order `k` between 1 and the declared one,
`evaluate_dkinput_dhyperk(d, k)` returns the `k`-th derivative of `η`.  Afterwards both parameters
hold the base values, as plain numbers. -/
theorem C55_kth_derivative (hF : ContDiff ℝ ∞ F) (hn : 0 < n) (hm : 0 < m)
    (objFn : Param → Param → Py Arr) (inputPar hyperPar : Param) (hyperIsFree : Bool)
    (hev : Evaluates inputPar hyperPar objFn true hyperIsFree F)
    (x e : List ℝ) (hx : x.length = n) (he : e.length = m)
    (hpc : PositiveCurvature F (toVec n x) (toVec m e)) (order : ℕ) (ho : 1 ≤ order)
    (hess0 : Option Arr) :
    ∃ T, Taylor.new objFn inputPar hyperPar x e order true hyperIsFree hess0 none = .ok T ∧
      ∀ d : List ℝ, d.length = m → ∀ η, OptimumPath F (toVec n x) (toVec m e) (toVec m d) η →
        ∀ k : ℕ, 1 ≤ k → k ≤ order →
          ∃ T', T.evaluateDk d k = (T', .ok (List.ofFn (iteratedDeriv k η 0))) ∧
            setPar inputPar x true = (T'.inputPar, none) ∧
            setPar hyperPar e hyperIsFree = (T'.hyperPar, none) ∧
            T'.inputPar.Plain ∧ T'.hyperPar.Plain := by
  obtain ⟨T, h1, h2, h3, h4, h5, h6, b1, b2⟩ := Taylor.new_ok hF hn hev hx he hpc ho hess0
  refine ⟨T, h1, ?_⟩
  intro d hd η hη k hk hko
  obtain ⟨T', g1, g2, g3, g4⟩ := h3.evaluateDk hF hn hm h2 hx he hpc hd hη hk (by omega)
  obtain ⟨s1, s2⟩ := TwoObjective.evalFun_ok (hev x e hx he)
  refine ⟨T', g1, ?_, ?_, g4⟩
  · rw [setPar_eq b1.symm s1] at g2; exact g2
  · rw [setPar_eq b2.symm s2] at g3; exact g3

/-- **C55**: the smooth path of optima exists, in every direction, whenever the base input is a
critical point.  So the derivatives of the optimum exist and the method returns them. -/
theorem C55_derivatives_exist (hF : ContDiff ℝ ∞ F) (hn : 0 < n) (hm : 0 < m)
    (objFn : Param → Param → Py Arr) (inputPar hyperPar : Param) (hyperIsFree : Bool)
    (hev : Evaluates inputPar hyperPar objFn true hyperIsFree F)
    (x e : List ℝ) (hx : x.length = n) (he : e.length = m)
    (hcrit : fderiv ℝ (fun u => F (u, toVec m e)) (toVec n x) = 0)
    (hpc : PositiveCurvature F (toVec n x) (toVec m e)) (order : ℕ) (ho : 1 ≤ order)
    (hess0 : Option Arr) :
    ∃ T, Taylor.new objFn inputPar hyperPar x e order true hyperIsFree hess0 none = .ok T ∧
      ∀ d : List ℝ, d.length = m → ∃ η, OptimumPath F (toVec n x) (toVec m e) (toVec m d) η ∧
        ∀ k : ℕ, 1 ≤ k → k ≤ order →
          (T.evaluateDk d k).2 = .ok (List.ofFn (iteratedDeriv k η 0)) := by
  obtain ⟨T, h1, h2⟩ := C55_kth_derivative hF hn hm objFn inputPar hyperPar hyperIsFree hev x e hx he
    hpc order ho hess0
  refine ⟨T, h1, fun d hd => ?_⟩
  obtain ⟨η, hη⟩ := exists_optimumPath hF hcrit hpc (toVec m d)
  refine ⟨η, hη, fun k hk hko => ?_⟩
  obtain ⟨T', g, -⟩ := h2 d hd η hη k hk hko
  rw [g]

/-- **C55** for every history: take any constructed object, call its methods in any order and with any
arguments, whether or not they raise, set new base values with positive curvature, and then call its
methods in any order except for setting the base values again.  The derivatives returned are those
of the optimum at the new base values. -/
theorem C55_history (hF : ContDiff ℝ ∞ F) (hn : 0 < n) (hm : 0 < m)
    (objFn : Param → Param → Py Arr) (inputPar hyperPar : Param) (hyperIsFree : Bool)
    (hev : Evaluates inputPar hyperPar objFn true hyperIsFree F)
    (x0 e0 : List ℝ) (order0 : ℕ) (hess0 : Option Arr) (T0 : Taylor)
    (hnew : Taylor.new objFn inputPar hyperPar x0 e0 order0 true hyperIsFree hess0 none = .ok T0)
    (before after : List Taylor.Op) (hafter : ∀ op ∈ after, op.keepsBase)
    (x e : List ℝ) (hx : x.length = n) (he : e.length = m)
    (hpc : PositiveCurvature F (toVec n x) (toVec m e)) :
    ((before.foldl Taylor.step T0).setBaseValues x e none).2 = none ∧
    let T := after.foldl Taylor.step ((before.foldl Taylor.step T0).setBaseValues x e none).1
    ∀ d : List ℝ, d.length = m → ∀ η, OptimumPath F (toVec n x) (toVec m e) (toVec m d) η →
      ∀ k : ℕ, 1 ≤ k → k ≤ T.order →
        ∃ T', T.evaluateDk d k = (T', .ok (List.ofFn (iteratedDeriv k η 0))) ∧
          T.inputPar.setFree x = (T'.inputPar, none) ∧
          setPar T.hyperPar e hyperIsFree = (T'.hyperPar, none) ∧
          T'.inputPar.Plain ∧ T'.hyperPar.Plain := by
  have hI := Inv.run hF before (Inv.of_new hF hev hnew)
  obtain ⟨l, e1⟩ := setBase_computed hF hI.hfi hI.hfh hI.ev hn hx he hpc
  have hI1 := hI.step hF (.setBase x e none)
  rw [Taylor.step] at hI1
  refine ⟨by rw [e1], ?_⟩
  intro T d hd η hη k hk hko
  have hI2 : Inv F true hyperIsFree T := Inv.run hF after hI1
  have hB : Based F x e T := by
    refine Based.of_base (T := ((before.foldl Taylor.step T0).setBaseValues x e none).1) ?_
      (run_base after _ hafter)
    rw [e1]
    exact ⟨rfl, rfl, rfl, rfl⟩
  exact hB.evaluateDk hF hn hm hI2 hx he hpc hd hη hk hko

/-! ### C56 -/

/-- The Taylor polynomial of degree `deg` of a path, without the constant term. -/
def taylorPoly (η : ℝ → Fin n → ℝ) (deg : ℕ) : Fin n → ℝ :=
  ∑ k ∈ Finset.Icc 1 deg, (1 / (k.factorial : ℝ)) • iteratedDeriv k η 0

/-- The Taylor series at an object with the given base values. -/
theorem Taylor.Based.evaluateSeries (hF : ContDiff ℝ ∞ F) (hn : 0 < n) (hm : 0 < m) {fi fh : Bool}
    {T : Taylor} {x e : List ℝ} (hB : Based F x e T) (hI : Inv F fi fh T)
    (hx : x.length = n) (he : e.length = m) (hpc : PositiveCurvature F (toVec n x) (toVec m e))
    {d : List ℝ} (hd : d.length = m) {η : ℝ → Fin n → ℝ}
    (hη : OptimumPath F (toVec n x) (toVec m e) (toVec m d) η) {deg : ℕ} (hdeg : 1 ≤ deg)
    (hdo : deg ≤ T.order) (mo : Option ℤ) (hmo : mo.getD T.order = deg) :
    (T.evaluateSeries d true mo).2 = .ok (List.ofFn (toVec n x + taylorPoly η deg)) ∧
    (T.evaluateSeries d false mo).2 = .ok (List.ofFn (taylorPoly η deg)) := by
  obtain ⟨order, h4⟩ : ∃ order, T.order = order := ⟨_, rfl⟩
  rw [h4] at hdo
  have hstep : ∀ S : Taylor, (Inv F fi fh S ∧ Based F x e S ∧ S.order = order) →
      ∀ k : ℕ, 1 ≤ k → k ≤ order → ∃ S', S.evaluateDk d k = (S', .ok (List.ofFn (iteratedDeriv k η 0))) ∧
        (Inv F fi fh S' ∧ Based F x e S' ∧ S'.order = order) := by
    intro S hS k hk hko
    obtain ⟨S', g1, -⟩ := hS.2.1.evaluateDk hF hn hm hS.1 hx he hpc hd hη hk (by rw [hS.2.2]; exact hko)
    obtain ⟨p, q, g2, -, -⟩ := S.evaluateDk_shape d k
    refine ⟨S', g1, ?_, ?_, ?_⟩
    · have := hS.1.step hF (.evaluateDk d k)
      rw [Taylor.step, g1] at this
      exact this
    · have := hS.2.1.of_base (S.step_base (.evaluateDk d k) trivial)
      rw [Taylor.step, g1] at this
      exact this
    · rw [g1] at g2
      simp only at g2
      rw [g2]
      exact hS.2.2
  obtain ⟨T1, g1, gI⟩ := hstep T ⟨hI, hB, h4⟩ 1 le_rfl (by omega)
  obtain ⟨T2, g2, gI2⟩ := seriesLoop_ok (fun k => iteratedDeriv k η 0) _
    ((List.range (deg - 1)).map (· + 2)) T1 (iteratedDeriv 1 η 0) gI (by
      intro S hS k hk
      obtain ⟨j, hj, rfl⟩ := List.mem_map.mp hk
      have := List.mem_range.mp hj
      exact hstep S hS (j + 2) (by omega) (by omega))
  have hsum : iteratedDeriv 1 η 0 + (((List.range (deg - 1)).map (· + 2)).map fun k =>
      (1 / (k.factorial : ℝ)) • iteratedDeriv k η 0).sum = taylorPoly η deg := by
    rw [taylorPoly, List.map_map]
    change _ + ((List.range (deg - 1)).map fun j => (1 / ((j + 2).factorial : ℝ)) •
      iteratedDeriv (j + 2) η 0).sum = _
    rw [sum_map_range (fun j => (1 / ((j + 2).factorial : ℝ)) • iteratedDeriv (j + 2) η 0)]
    obtain ⟨c, rfl⟩ := Nat.exists_eq_add_of_le' hdeg
    rw [Nat.add_sub_cancel, show Finset.Icc 1 (c + 1) = Finset.Ico 1 (c + 2) by ext; simp; omega,
      Finset.sum_eq_sum_Ico_succ_bot (by omega), Finset.sum_Ico_eq_sum_range]
    simp only [Nat.factorial_one, Nat.cast_one, div_one, one_smul]
    congr 1
    refine Finset.sum_congr (by congr 1) fun j _ => ?_
    rw [show 1 + 1 + j = j + 2 by omega]
  rw [hsum] at g2
  have hadd : vadd (List.ofFn (taylorPoly η deg)) x = .ok (List.ofFn (toVec n x + taylorPoly η deg)) := by
    rw [vadd, if_pos (by simp [hx])]
    congr 1
    apply List.ext_getElem
    · simp [hx]
    · intro i hi1 hi2
      simp only [List.getElem_zipWith, List.getElem_ofFn, Pi.add_apply]
      rw [add_comm]
      congr 1
      have hix : i < x.length := by simp [hx] at hi2; omega
      simp [toVec, hix]
  have hcond : ¬ (mo.getD (T.order : ℤ) ≤ 0) ∧ ¬ ((T.order : ℤ) < mo.getD (T.order : ℤ)) := by
    rw [hmo, h4]; omega
  have hb : T2.base.inputVal0 = x := gI2.2.1.hx
  rw [Nat.cast_one] at g1
  unfold Taylor.evaluateSeries
  simp only [hcond.1, hcond.2, if_false, g1]
  rw [hmo, Int.toNat_natCast, g2]
  simp only [hb, if_true]
  exact ⟨hadd, by simp⟩

/-- Orders out of range. -/
theorem Taylor.order_range (T : Taylor) (d : List ℝ) (k : ℤ) (hk : k ≤ 0 ∨ (T.order : ℤ) < k) :
    T.evaluateDk d k = (T, .error .valueError) ∧
    ∀ off, T.evaluateSeries d off (some k) = (T, .error .valueError) := by
  rw [evaluateDk]
  constructor
  · by_cases h0 : k ≤ 0
    · rw [if_pos h0]
    · rw [if_neg h0, if_pos (by omega)]
  · intro off
    rw [Taylor.evaluateSeries]
    simp only [Option.getD_some]
    by_cases h0 : k ≤ 0
    · rw [if_pos h0]
    · rw [if_neg h0, if_pos (by omega)]

/-- **C56** in the setting of C55: `evaluate_taylor_series(d, add_offset, max_order)` is the Taylor
polynomial of the optimum of degree `max_order` (the declared order by default), with the base input
added on request.  Orders out of range raise `ValueError`, also in `evaluate_dkinput_dhyperk`. -/
theorem C56_taylor_series (hF : ContDiff ℝ ∞ F) (hn : 0 < n) (hm : 0 < m)
    (objFn : Param → Param → Py Arr) (inputPar hyperPar : Param) (hyperIsFree : Bool)
    (hev : Evaluates inputPar hyperPar objFn true hyperIsFree F)
    (x e : List ℝ) (hx : x.length = n) (he : e.length = m)
    (hpc : PositiveCurvature F (toVec n x) (toVec m e)) (order : ℕ) (ho : 1 ≤ order)
    (hess0 : Option Arr) :
    ∃ T, Taylor.new objFn inputPar hyperPar x e order true hyperIsFree hess0 none = .ok T ∧
      (∀ d : List ℝ, d.length = m → ∀ η, OptimumPath F (toVec n x) (toVec m e) (toVec m d) η →
        (∀ deg : ℕ, 1 ≤ deg → deg ≤ order →
          (T.evaluateSeries d true (some deg)).2 = .ok (List.ofFn (toVec n x + taylorPoly η deg)) ∧
          (T.evaluateSeries d false (some deg)).2 = .ok (List.ofFn (taylorPoly η deg))) ∧
        (T.evaluateSeries d true none).2 = .ok (List.ofFn (toVec n x + taylorPoly η order)) ∧
        (T.evaluateSeries d false none).2 = .ok (List.ofFn (taylorPoly η order))) ∧
      (∀ (d : List ℝ) (k : ℤ), k ≤ 0 ∨ (order : ℤ) < k →
        T.evaluateDk d k = (T, .error .valueError) ∧
        ∀ off, T.evaluateSeries d off (some k) = (T, .error .valueError)) := by
  obtain ⟨T, h1, h2, h3, h4, -, -, -, -⟩ := Taylor.new_ok hF hn hev hx he hpc ho hess0
  refine ⟨T, h1, ?_, ?_⟩
  · intro d hd η hη
    refine ⟨fun deg hdeg hdo => h3.evaluateSeries hF hn hm h2 hx he hpc hd hη hdeg (by omega) (some deg) rfl,
      h3.evaluateSeries hF hn hm h2 hx he hpc hd hη ho (by omega) none (by simp [h4])⟩
  · intro d k hk
    exact T.order_range d k (by rw [h4]; exact hk)

/-- **C56** for every history: take any constructed object, call its methods in any order and with any
arguments, whether or not they raise, set new base values with positive curvature, and then call its
methods in any order except for setting the base values again.  The Taylor series is the one at the
new base values, up to the order set last. -/
theorem C56_history (hF : ContDiff ℝ ∞ F) (hn : 0 < n) (hm : 0 < m)
    (objFn : Param → Param → Py Arr) (inputPar hyperPar : Param) (hyperIsFree : Bool)
    (hev : Evaluates inputPar hyperPar objFn true hyperIsFree F)
    (x0 e0 : List ℝ) (order0 : ℕ) (hess0 : Option Arr) (T0 : Taylor)
    (hnew : Taylor.new objFn inputPar hyperPar x0 e0 order0 true hyperIsFree hess0 none = .ok T0)
    (before after : List Taylor.Op) (hafter : ∀ op ∈ after, op.keepsBase)
    (x e : List ℝ) (hx : x.length = n) (he : e.length = m)
    (hpc : PositiveCurvature F (toVec n x) (toVec m e)) :
    ((before.foldl Taylor.step T0).setBaseValues x e none).2 = none ∧
    let T := after.foldl Taylor.step ((before.foldl Taylor.step T0).setBaseValues x e none).1
    (∀ d : List ℝ, d.length = m → ∀ η, OptimumPath F (toVec n x) (toVec m e) (toVec m d) η →
      ∀ deg : ℕ, 1 ≤ deg → deg ≤ T.order → ∀ mo : Option ℤ, mo.getD T.order = deg →
        (T.evaluateSeries d true mo).2 = .ok (List.ofFn (toVec n x + taylorPoly η deg)) ∧
        (T.evaluateSeries d false mo).2 = .ok (List.ofFn (taylorPoly η deg))) ∧
    (∀ (d : List ℝ) (k : ℤ), k ≤ 0 ∨ (T.order : ℤ) < k →
      T.evaluateDk d k = (T, .error .valueError) ∧
      ∀ off, T.evaluateSeries d off (some k) = (T, .error .valueError)) := by
  have hI := Inv.run hF before (Inv.of_new hF hev hnew)
  obtain ⟨l, e1⟩ := setBase_computed hF hI.hfi hI.hfh hI.ev hn hx he hpc
  have hI1 := hI.step hF (.setBase x e none)
  rw [Taylor.step] at hI1
  refine ⟨by rw [e1], ?_⟩
  intro T
  have hI2 : Inv F true hyperIsFree T := Inv.run hF after hI1
  have hB : Based F x e T := by
    refine Based.of_base (T := ((before.foldl Taylor.step T0).setBaseValues x e none).1) ?_
      (run_base after _ hafter)
    rw [e1]
    exact ⟨rfl, rfl, rfl, rfl⟩
  exact ⟨fun d hd η hη deg hdeg hdo mo hmo =>
    hB.evaluateSeries hF hn hm hI2 hx he hpc hd hη hdeg hdo mo hmo, fun d k hk => T.order_range d k hk⟩

/-! ### A case -/

/-- `x² / 2 + x³ / 6 - ε x`. -/
def exH (x ε : ℝ) : ℝ := x ^ 2 / 2 + x ^ 3 / 6 - ε * x

/-- ... as a function of vectors of length 1. -/
def exHF (z : (Fin 1 → ℝ) × (Fin 1 → ℝ)) : ℝ := exH (z.1 0) (z.2 0)

theorem exHF_smooth : ContDiff ℝ ∞ exHF := by
  have h1 : ContDiff ℝ ∞ fun z : (Fin 1 → ℝ) × (Fin 1 → ℝ) => z.1 0 :=
    (contDiff_apply ℝ ℝ 0).comp contDiff_fst
  have h2 : ContDiff ℝ ∞ fun z : (Fin 1 → ℝ) × (Fin 1 → ℝ) => z.2 0 :=
    (contDiff_apply ℝ ℝ 0).comp contDiff_snd
  exact (((h1.pow 2).div_const 2).add ((h1.pow 3).div_const 6)).sub (h2.mul h1)

/-- The hypotheses of C55 and C56 are met by the objective `x² / 2 + x³ / 6 - ε x` at `(0, 0)`. -/
theorem exHF_case : Evaluates (scPar ninf) (scPar ninf) (scFn exH) true false exHF ∧
    fderiv ℝ (fun u => exHF (u, toVec 1 [0])) (toVec 1 [0]) = 0 ∧
    PositiveCurvature exHF (toVec 1 [0]) (toVec 1 [0]) := by
  refine ⟨scFn_real exH true false, ?_, ?_⟩
  · have : HasDerivAt (fun s : ℝ => exH s 0) 0 0 := by
      have h := (((hasDerivAt_id (0 : ℝ)).pow 2).div_const 2).add (((hasDerivAt_id (0 : ℝ)).pow 3).div_const 6)
      have h' := h.sub ((hasDerivAt_id (0 : ℝ)).const_mul 0)
      refine (h'.congr_deriv (by simp)).congr_of_eventuallyEq ?_
      exact Filter.Eventually.of_forall fun s => by simp [exH]
    exact scalar_crit this
  · refine scalar_curv (h := fun s => exH s 0) (h1 := fun s => s + s ^ 2 / 2) (c := 1) ?_ ?_ one_pos
    · intro s
      have h := (((hasDerivAt_id s).pow 2).div_const 2).add (((hasDerivAt_id s).pow 3).div_const 6)
      have h' := h.sub ((hasDerivAt_id s).const_mul 0)
      refine (h'.congr_deriv (by simp; ring)).congr_of_eventuallyEq ?_
      exact Filter.Eventually.of_forall fun s => by simp [exH]
    · have h := (hasDerivAt_id (0 : ℝ)).add (((hasDerivAt_id (0 : ℝ)).pow 2).div_const 2)
      refine (h.congr_deriv (by simp)).congr_of_eventuallyEq ?_
      exact Filter.Eventually.of_forall fun s => by simp

end

end LRVB
