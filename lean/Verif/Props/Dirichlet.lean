import Verif.Props.Normal
import Verif.Lemmas.GammaDist

/-!
# Dirichlet parameters: C77
-/

namespace LRVB

open Arr ExpFam Families

noncomputable section

theorem digamma_ofFn {s : List ℕ} {f : List ℕ → ℝ} (h : ∀ idx, InShape idx s → 0 < f idx) :
    digamma (ofFn s f) = .ok (ofFn s fun idx => psi (f idx)) :=
  mapPy_ofFn (k := psi) fun idx hi => by rw [digammaR, if_pos (h idx hi)]; rfl

theorem gammaln_ofFn {s : List ℕ} {f : List ℕ → ℝ} (h : ∀ idx, InShape idx s → 0 < f idx) :
    gammaln (ofFn s f) = .ok (ofFn s fun idx => Real.log (Real.Gamma (f idx))) :=
  mapPy_ofFn (k := fun x => Real.log (Real.Gamma x)) fun idx hi => by
    rw [gammalnR, if_pos (h idx hi)]

theorem sum_pos_col {n : ℕ} (hn : 0 < n) {s : List ℕ} {f : List ℕ → ℝ}
    (h : ∀ idx, InShape idx (n :: s) → 0 < f idx) {idx : List ℕ} (hi : InShape idx s) :
    0 < ∑ i ∈ Finset.range n, f (i :: idx) :=
  Finset.sum_pos (fun i hi' => h _ (List.Forall₂.cons (Finset.mem_range.1 hi') hi))
    ⟨0, Finset.mem_range.2 hn⟩

theorem eDirichlet_ofFn {n : ℕ} (hn : 0 < n) {s : List ℕ} {f : List ℕ → ℝ}
    (h : ∀ idx, InShape idx (n :: s) → 0 < f idx) :
    getEDirichlet (ofFn (n :: s) f) =
      .ok (ofFn (n :: s) fun idx => f idx / ∑ i ∈ Finset.range n, f (i :: idx.tail)) := by
  unfold getEDirichlet
  rw [sum0Keep_ofFn, py_ok_bind, div_eq, bin_cons_one]
  · rfl
  · refine zero_notMem_ofFn fun idx hi => ?_
    cases hi with
    | cons h1 h2 => exact (sum_pos_col hn h h2).ne'

/-- **C77** For every array of positive `alpha` with `n ≥ 1` components along the first axis,
`get_e_dirichlet(alpha)` is an array of the same shape with positive entries that sum to one along
the first axis. -/
theorem C77_mean_on_simplex (n : ℕ) (hn : 0 < n) (s : List ℕ) (alpha : Arr)
    (h : IsPosArr alpha (n :: s)) :
    ∃ e, getEDirichlet alpha = .ok e ∧ IsPosArr e (n :: s) ∧
      ∀ idx, InShape idx s → ∑ i ∈ Finset.range n, e.get (i :: idx) = 1 := by
  refine ⟨_, by rw [arr_eq h.1]; exact eDirichlet_ofFn hn h.2, ⟨ofFn_arr _ _, ?_⟩, ?_⟩
  · intro idx hi
    rw [get_ofFn _ hi]
    refine div_pos (h.2 idx hi) ?_
    cases hi with
    | cons h1 h2 => exact sum_pos_col hn h.2 h2
  · intro idx hi
    have hpos := sum_pos_col hn h.2 hi
    rw [Finset.sum_congr rfl fun i hi' =>
      get_ofFn _ (List.Forall₂.cons (Finset.mem_range.1 hi') hi)]
    simp only [List.tail_cons]
    rw [← Finset.sum_div, div_self hpos.ne']

/-- **C77** After any history of calls on a `DirichletParamArray` with `n ≥ 1` components,
`set_free` with a vector of the right size succeeds and leaves positive `alpha`; `e()` is then on the
simplex. -/
theorem C77_after_set_free (name : String) (minAlpha : ℝ) (h0 : 0 ≤ minAlpha) (n : ℕ) (hn : 0 < n)
    (s : List ℕ) (ops : List ParamOp) :
    ∃ p, mkDirichlet name (n :: s) minAlpha none = .ok ⟨p, n :: s⟩ ∧
      p.freeSize = n * s.prod ∧ ∀ x, x.length = n * s.prod →
      ∃ q alpha e, (p.run ops).setFree x = (q, none) ∧ Holds q "alpha" alpha ∧
        IsPosArr alpha (n :: s) ∧ dirichletE q = .ok e ∧ IsPosArr e (n :: s) ∧
        ∀ idx, InShape idx s → ∑ i ∈ Finset.range n, e.get (i :: idx) = 1 := by
  have b2 : (Flt.fin minAlpha : Flt) < Flt.pinf := by simp
  obtain ⟨l, m1, n1, k1⟩ := mkArray_kind (name := "alpha") (s := n :: s) b2
  have hp := sole_push name l
  rw [n1, k1] at hp
  have hfs : (Kind.array (n :: s) (.fin minAlpha) .pinf).freeSize = n * s.prod := by
    simp [Kind.freeSize]
  refine ⟨_, by unfold mkDirichlet; rw [if_neg (by simpa using h0), m1]; rfl,
    hp.freeSize.trans hfs, fun x hx => ?_⟩
  obtain ⟨q, a, h1, h2, h3⟩ := (hp.run ops).setFree
    (P := fun a => Inside a (n :: s) (Flt.fin minAlpha) Flt.pinf)
    (fun l hk x hx => setFree_array hk b2 (by rw [hx]; rfl))
    (x := x) (by rw [(hp.run ops).freeSize, hx, hfs])
  obtain ⟨e, h4, h5, h6⟩ := C77_mean_on_simplex n hn s a (h3.pos h0)
  exact ⟨q, a, e, h1, h2, h3.pos h0, by unfold dirichletE; rw [h2.item]; exact h4, h5, h6⟩

/-- Three components, two columns. -/
example : IsPosArr ⟨[3, 2], [1, 2, 0.5, 4, 3, 0.1]⟩ [3, 2] :=
  ⟨⟨rfl, rfl⟩, fun _ hi => forall_data_get (a := ⟨[3, 2], [1, 2, 0.5, 4, 3, 0.1]⟩)
    (P := fun x => 0 < x) rfl (by norm_num) hi⟩

/-- A `DirichletParamArray` of shape `(3, 2)`, after a call that fails. -/
example : ∃ p q alpha, mkDirichlet "d" [3, 2] 0.1 none = .ok ⟨p, [3, 2]⟩ ∧
    (p.run [.setFree [1]]).setFree (List.replicate 6 0.5) = (q, none) ∧ Holds q "alpha" alpha := by
  obtain ⟨p, h1, -, h2⟩ := C77_after_set_free "d" 0.1 (by norm_num) 3 (by norm_num) [2]
    [.setFree [1]]
  obtain ⟨q, a, e, h3, h4, -⟩ := h2 (List.replicate 6 0.5) (by simp)
  exact ⟨p, q, a, h1, h3, h4⟩

theorem dirichletEntropy_ofFn {n : ℕ} (hn : 0 < n) {s : List ℕ} {f : List ℕ → ℝ}
    (h : ∀ idx, InShape idx (n :: s) → 0 < f idx) :
    dirichletEntropy (ofFn (n :: s) f) = .ok (ofFn s fun idx =>
      ∑ i ∈ Finset.range n, Real.log (Real.Gamma (f (i :: idx))) -
        Real.log (Real.Gamma (∑ i ∈ Finset.range n, f (i :: idx))) -
        (n - ∑ i ∈ Finset.range n, f (i :: idx)) * psi (∑ i ∈ Finset.range n, f (i :: idx)) -
        ∑ i ∈ Finset.range n, (f (i :: idx) - 1) * psi (f (i :: idx))) := by
  have hs : ∀ idx, InShape idx (1 :: s) → 0 < ∑ i ∈ Finset.range n, f (i :: idx.tail) := by
    intro idx hi
    cases hi with
    | cons h1 h2 => exact sum_pos_col hn h h2
  unfold dirichletEntropy
  simp only [ofFn_shape]
  rw [sum0Keep_ofFn, py_ok_bind, gammaln_ofFn h, py_ok_bind, sum0Keep_ofFn, py_ok_bind,
    gammaln_ofFn hs, py_ok_bind]
  unfold minus mul
  rw [bin_ofFn, py_ok_bind, bin_scalar_left, py_ok_bind, digamma_ofFn hs, py_ok_bind]
  rw [show (ofFn (ofFn (1 :: s) fun idx => ∑ i ∈ Finset.range n, f (i :: idx.tail)).shape
      fun idx => (n : ℝ) - (ofFn (1 :: s) fun idx =>
        ∑ i ∈ Finset.range n, f (i :: idx.tail)).get idx) =
      ofFn (1 :: s) fun idx => (n : ℝ) - ∑ i ∈ Finset.range n, f (i :: idx.tail) from
    ofFn_congr (s := 1 :: s) fun idx hi => by rw [get_ofFn _ hi]]
  rw [bin_ofFn, py_ok_bind, bin_scalar_right, py_ok_bind, digamma_ofFn h, py_ok_bind]
  rw [show (ofFn (ofFn (n :: s) f).shape fun idx => (ofFn (n :: s) f).get idx - 1) =
      ofFn (n :: s) fun idx => f idx - 1 from
    ofFn_congr (s := n :: s) fun idx hi => by rw [get_ofFn _ hi]]
  rw [bin_ofFn, py_ok_bind, sum0_ofFn, py_ok_bind, bin_ofFn, py_ok_bind, bin_one_cons_self,
    py_ok_bind, squeeze0_ofFn]
  rfl


theorem inShape_two {idx : List ℕ} {r c : ℕ} (h : InShape idx [r, c]) :
    ∃ i j, idx = [i, j] ∧ i < r ∧ j < c := by
  cases h with
  | cons h1 h2 => cases h2 with
    | cons h3 h4 => cases h4; exact ⟨_, _, rfl, h1, h3⟩

theorem inShape_one {idx : List ℕ} {r : ℕ} (h : InShape idx [r]) : ∃ i, idx = [i] ∧ i < r := by
  cases h with
  | cons h1 h2 => cases h2; exact ⟨_, rfl, h1⟩

theorem betaEntropy_ofFn {r : ℕ} {f : List ℕ → ℝ} (h : ∀ idx, InShape idx [r, 2] → 0 < f idx) :
    betaEntropy (ofFn [r, 2] f) = .ok (((indexProduct [r]).map fun idx =>
      Real.log (Real.Gamma (f (idx ++ [0]))) + Real.log (Real.Gamma (f (idx ++ [1]))) -
        Real.log (Real.Gamma (f (idx ++ [0]) + f (idx ++ [1]))) -
        (f (idx ++ [0]) - 1) * psi (f (idx ++ [0])) - (f (idx ++ [1]) - 1) * psi (f (idx ++ [1])) +
        (f (idx ++ [0]) + f (idx ++ [1]) - 2) * psi (f (idx ++ [0]) + f (idx ++ [1]))).sum) := by
  have hin : ∀ j, j < 2 → ∀ idx, InShape idx [r] → InShape (idx ++ [j]) [r, 2] := by
    intro j hj idx hi
    obtain ⟨i, rfl, h1⟩ := inShape_one hi
    exact List.Forall₂.cons h1 (List.Forall₂.cons hj List.Forall₂.nil)
  have hcol : ∀ j, j < 2 → (ofFn [r, 2] f).col j = .ok (ofFn [r] fun idx => f (idx ++ [j])) := by
    intro j hj
    unfold col
    simp only [ofFn_shape, if_pos hj]
    congr 1
    exact ofFn_congr fun idx hi => get_ofFn _ (hin j hj idx hi)
  have hp : ∀ j, j < 2 → ∀ idx, InShape idx [r] → 0 < f (idx ++ [j]) :=
    fun j hj idx hi => h _ (hin j hj idx hi)
  have hsum : (ofFn [r, 2] f).sumLast = .ok (ofFn [r] fun idx => f (idx ++ [0]) + f (idx ++ [1])) := by
    unfold sumLast
    simp only [ofFn_shape, List.getLast?_cons_cons, List.getLast?_singleton, List.dropLast_cons₂,
      List.dropLast_singleton]
    congr 1
    refine ofFn_congr fun idx hi => ?_
    rw [Finset.sum_range_succ, Finset.sum_range_one, get_ofFn _ (hin 0 (by omega) idx hi),
      get_ofFn _ (hin 1 (by omega) idx hi)]
  have hps : ∀ idx, InShape idx [r] → 0 < f (idx ++ [0]) + f (idx ++ [1]) := fun idx hi =>
    add_pos (hp 0 (by omega) idx hi) (hp 1 (by omega) idx hi)
  have hsub : ∀ (g : List ℕ → ℝ) (c : ℝ), bin (· - ·) (ofFn [r] g) (scalar c) =
      .ok (ofFn [r] fun idx => g idx - c) := fun g c => by
    rw [bin_scalar_right]
    congr 1
    exact ofFn_congr (s := [r]) fun idx hi => by rw [get_ofFn _ hi]
  unfold betaEntropy
  rw [hcol 0 (by omega), py_ok_bind, hcol 1 (by omega), py_ok_bind, hsum, py_ok_bind,
    digamma_ofFn (hp 0 (by omega)), py_ok_bind, digamma_ofFn (hp 1 (by omega)), py_ok_bind,
    digamma_ofFn hps, py_ok_bind, gammaln_ofFn (hp 0 (by omega)), py_ok_bind,
    gammaln_ofFn (hp 1 (by omega)), py_ok_bind, gammaln_ofFn hps, py_ok_bind]
  unfold minus mul add
  simp only [bin_ofFn, py_ok_bind, hsub, sumAll_ofFn]

/-- **C77** The Dirichlet entropies of an array with two components equal the beta entropy of the
same parameters, for every number of columns. -/
theorem C77_two_component_entropy (r : ℕ) (tau : Arr) (h : IsPosArr tau [r, 2]) :
    ∃ e, dirichletEntropy tau.transpose = .ok e ∧ IsArr e [r] ∧ betaEntropy tau = .ok e.sumAll := by
  have ht : tau.transpose = ofFn [2, r] fun idx => tau.get [idx.getD 1 0, idx.getD 0 0] := by
    refine eq_ofFn ?_ ?_ ?_
    · exact ofFn2_WF _ _ _
    · unfold transpose; rw [h.1.2]; rfl
    · intro idx hi
      obtain ⟨i, j, rfl, h1, h2⟩ := inShape_two hi
      unfold transpose
      rw [h.1.2]
      have e1 : ∀ (b : Arr) (i j : ℕ), b.shape.length = 2 → b.get [i, j] = b.at2 i j := by
        intro b i j hb
        match hs : b.shape, hb with
        | [x, y], _ => simp [Arr.get, hs, Arr.flat, at2]
      rw [e1 _ _ _ rfl, e1 _ _ _ (by rw [h.1.2]; rfl)]
      simp only [List.getD_cons_zero, List.getD_cons_succ]
      exact at2_ofFn2 _ _ _ h1 h2
  have hpos : ∀ idx, InShape idx [2, r] → 0 < tau.get [idx.getD 1 0, idx.getD 0 0] := by
    intro idx hi
    obtain ⟨i, j, rfl, h1, h2⟩ := inShape_two hi
    exact h.2 _ (List.Forall₂.cons h2 (List.Forall₂.cons h1 List.Forall₂.nil))
  refine ⟨_, by rw [ht]; exact dirichletEntropy_ofFn (by omega) hpos, ofFn_arr _ _, ?_⟩
  conv_lhs => rw [arr_eq h.1]
  rw [betaEntropy_ofFn h.2, sumAll_ofFn]
  congr 2
  refine List.map_congr_left fun idx hi => ?_
  obtain ⟨i, rfl, h1⟩ := inShape_one (mem_indexProduct.1 hi)
  simp only [Finset.sum_range_succ, Finset.sum_range_zero, List.getD_cons_zero,
    List.getD_cons_succ, List.cons_append, List.nil_append, zero_add]
  push_cast
  ring

/-- Two beta distributions. -/
example : IsPosArr ⟨[2, 2], [1, 2, 0.5, 4]⟩ [2, 2] :=
  ⟨⟨rfl, rfl⟩, fun _ hi => forall_data_get (a := ⟨[2, 2], [1, 2, 0.5, 4]⟩)
    (P := fun x => 0 < x) rfl (by norm_num) hi⟩

end

end LRVB
