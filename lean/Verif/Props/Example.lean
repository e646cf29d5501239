import Verif.Spec.Example
import Verif.Lemmas.Mle
import Verif.Lemmas.Families
import Verif.Props.LegalValues
import Verif.Props.MvnDensity
import Verif.Props.WishartDist
import Mathlib.Data.List.GetD

/-!
# C179: the maximum likelihood fit of the example notebook
-/

namespace LRVB

namespace Example

open Families Flt

noncomputable section

/-! ### The sum of products -/

theorem labelDim_of {axes : List (ℕ × ℕ)} {l D : ℕ} (h : ∀ p ∈ axes, p.1 = l → p.2 = D) (hm : ∃ p ∈ axes, p.1 = l) :
    Arr.labelDim axes l = D := by
  unfold Arr.labelDim
  cases hf : axes.find? fun p => p.1 = l ∧ p.2 ≠ 1 with
  | some p =>
    have h1 := List.find?_some hf
    have h2 := List.mem_of_find?_eq_some hf
    simp only [ne_eq, decide_eq_true_eq] at h1
    simpa using h p h2 h1.1
  | none =>
    obtain ⟨p, hp, hl⟩ := hm
    have h1 := List.find?_eq_none.1 hf p hp
    have h2 := h p hp hl
    simp only [ne_eq, decide_eq_true_eq, not_and, not_not] at h1
    rw [← h2, h1 hl]
    rfl

theorem bget_two {a : Arr} {r c i j : ℕ} (h : a.shape = [r, c]) (hi : i < r) (hj : j < c) :
    a.bget [i, j] = a.at2 i j := by
  unfold Arr.bget Arr.bIndex
  rw [h]
  have e1 : (if r = 1 then 0 else i) = i := by split_ifs <;> omega
  have e2 : (if c = 1 then 0 else j) = j := by split_ifs <;> omega
  simp only [List.length_cons, List.length_nil, Nat.sub_self, List.drop_zero, List.zipWith_cons_cons,
    List.zipWith_nil_right, e1, e2]
  exact Arr.get_two h i j

theorem bget_one {a : Arr} {r i : ℕ} (h : a.shape = [r]) (hi : i < r) : a.bget [i] = a.get [i] := by
  unfold Arr.bget Arr.bIndex
  rw [h]
  have e1 : (if r = 1 then 0 else i) = i := by split_ifs <;> omega
  simp only [List.length_cons, List.length_nil, Nat.sub_self, List.drop_zero, List.zipWith_cons_cons,
    List.zipWith_nil_right, e1]

theorem sum_indexProduct_three (a b c : ℕ) (f : List ℕ → ℝ) :
    ((indexProduct [a, b, c]).map f).sum =
      ∑ i ∈ Finset.range a, ∑ j ∈ Finset.range b, ∑ k ∈ Finset.range c, f [i, j, k] := by
  have hf : ∀ (n : ℕ) (g : ℕ → List ℝ), ((List.range n).flatMap g).sum = ∑ k ∈ Finset.range n, (g k).sum := by
    intro n g
    induction n with
    | zero => rfl
    | succ n ih => simp [List.range_succ, ih, Finset.sum_range_succ]
  simp only [indexProduct, List.map_cons, List.map_nil, List.map_flatMap, hf, List.sum_cons, List.sum_nil, add_zero]

theorem einsumAll_quad {r l w : Arr} {N d : ℕ} (hr : r.shape = [N, d]) (hl : l.shape = [d, d]) (hw : w.shape = [N]) :
    Arr.einsumAll [(r, [0, 1]), (l, [1, 2]), (r, [0, 2]), (w, [0])] =
      .ok (∑ n ∈ Finset.range N, ∑ i ∈ Finset.range d, ∑ j ∈ Finset.range d,
        r.at2 n i * (l.at2 i j * (r.at2 n j * w.get [n]))) := by
  unfold Arr.einsumAll
  have hax : (([(r, [0, 1]), (l, [1, 2]), (r, [0, 2]), (w, [0])] : List (Arr × List ℕ)).flatMap
      fun o => List.zip o.2 o.1.shape) = [(0, N), (1, d), (1, d), (2, d), (0, N), (2, d), (0, N)] := by
    simp [hr, hl, hw]
  have hlab : ((([(r, [0, 1]), (l, [1, 2]), (r, [0, 2]), (w, [0])] : List (Arr × List ℕ)).flatMap
      fun o => o.2).dedup) = [1, 2, 0] := by
    simp only [List.flatMap_cons, List.flatMap_nil]
    decide
  have d0 : Arr.labelDim [(0, N), (1, d), (1, d), (2, d), (0, N), (2, d), (0, N)] 0 = N :=
    labelDim_of (by simp) (by simp)
  have d1 : Arr.labelDim [(0, N), (1, d), (1, d), (2, d), (0, N), (2, d), (0, N)] 1 = d :=
    labelDim_of (by simp) (by simp)
  have d2 : Arr.labelDim [(0, N), (1, d), (1, d), (2, d), (0, N), (2, d), (0, N)] 2 = d :=
    labelDim_of (by simp) (by simp)
  rw [hax, hlab]
  rw [if_neg (by simp [hr, hl, hw]), if_neg (by simp [d0, d1, d2])]
  simp only [List.map_cons, List.map_nil, d0, d1, d2, sum_indexProduct_three]
  congr 1
  have e0 : List.idxOf 0 [1, 2, 0] = 2 := by decide
  have e1 : List.idxOf 1 [1, 2, 0] = 0 := by decide
  have e2 : List.idxOf 2 [1, 2, 0] = 1 := by decide
  have key : ∀ i ∈ Finset.range d, ∀ j ∈ Finset.range d, ∀ n ∈ Finset.range N,
      (r.bget [[i, j, n].getD (List.idxOf 0 [1, 2, 0]) 0, [i, j, n].getD (List.idxOf 1 [1, 2, 0]) 0] *
        (l.bget [[i, j, n].getD (List.idxOf 1 [1, 2, 0]) 0, [i, j, n].getD (List.idxOf 2 [1, 2, 0]) 0] *
        (r.bget [[i, j, n].getD (List.idxOf 0 [1, 2, 0]) 0, [i, j, n].getD (List.idxOf 2 [1, 2, 0]) 0] *
        (w.bget [[i, j, n].getD (List.idxOf 0 [1, 2, 0]) 0] * 1)))) =
      r.at2 n i * (l.at2 i j * (r.at2 n j * w.get [n])) := by
    intro i hi j hj n hn
    rw [Finset.mem_range] at hi hj hn
    simp only [e0, e1, e2, List.getD_cons_zero, List.getD_cons_succ]
    rw [bget_two hr hn hi, bget_two hl hi hj, bget_two hr hn hj, bget_one hw hn, mul_one]
  simp only [List.prod_cons, List.prod_nil]
  rw [Finset.sum_congr rfl fun i hi => Finset.sum_congr rfl fun j hj => Finset.sum_congr rfl (key i hi j hj)]
  rw [Finset.sum_congr rfl fun i _ => Finset.sum_comm, Finset.sum_comm]

/-! ### The parameters -/

/-- What is known about the dictionary of the example after any history. -/
structure Ready (p : Param) (d : ℕ) : Prop where
  pair : Pair p "beta" (.array [d, d] (fin 0) .pinf) "lambda" (.posdef d 0)
  built : ∃ eigh, EighContract eigh ∧ Built eigh p

theorem built_run {eigh : Eigh} (ops : List ParamOp) : ∀ p, Built eigh p → Built eigh (p.run ops) := by
  induction ops with
  | nil => exact fun _ h => h
  | cons op ops ih => exact fun p h => ih _ (.step op h)

theorem params_ready (d : ℕ) : ∃ p, params d = .ok p ∧ ∀ ops, Ready (p.run ops) d := by
  have hlt : (fin 0 : Flt) < .pinf := by simp
  obtain ⟨b, hb, hbn, hbk⟩ := mkArray_kind (name := "beta") (s := [d, d]) hlt
  obtain ⟨eigh, he⟩ := exists_eigh
  set l : Leaf := ⟨"lambda", .posdef d 0, diagArr d (0 + 1), false⟩ with hl
  have hlk : mkPosDef "lambda" d 0 none = .ok l := by
    unfold mkPosDef
    simp [hl]
  have hne : b.name ≠ l.name := by
    rw [hbn, hl]
    simp
  refine ⟨((Param.emptyDict "params").push (.leaf b)).push (.leaf l), ?_, fun ops => ⟨?_, eigh, he, ?_⟩⟩
  · unfold params
    rw [hb, py_ok_bind, hlk, py_ok_bind]
  · have := (pair_push "params" hne).run ops
    rwa [hbn, hbk] at this
  · refine built_run ops _ ?_
    refine .push (.push (.empty _) (.leaf ⟨b, [], .array hb, rfl⟩ ?_) trivial trivial ?_)
      (.leaf ⟨l, [], .posDef hlk, rfl⟩ trivial) trivial trivial ?_
    · simp [Leaf.HoldsMatrix, hbk]
    · simp [Param.keys, Param.items, Param.emptyDict, Entries.toList]
    · simp [Param.keys, Param.items, Param.emptyDict, Param.push, Entries.assign, Entries.toList, Param.name, hbn, hl]

/-- The coefficients and the precision in a vector. -/
def betaArr (d : ℕ) (v : List ℝ) : Arr := ⟨[d, d], v.take (d * d)⟩
/-- The coefficients and the precision in a vector. -/
def lamArr (d : ℕ) (v : List ℝ) : Arr := symMat d (v.drop (d * d))

theorem Ready.hasParams {p : Param} {d : ℕ} (h : Ready p d) : p.HasParams := by
  obtain ⟨hd, l1, l2, rfl, -⟩ := h.pair
  simp [Param.HasParams]

theorem Ready.vecSize {p : Param} {d : ℕ} (h : Ready p d) : p.vecSize = d * d + vecSizeOf d := by
  obtain ⟨hd, l1, l2, rfl, -, -, -, h4⟩ := h.pair
  simpa [Param.vecSize, Kind.vecSize] using h4

theorem Ready.sizes {p : Param} {d : ℕ} (h : Ready p d) : p.freeSize = p.vecSize := by
  obtain ⟨hd, l1, l2, rfl, -, -, h3, h4⟩ := h.pair
  simp only [Param.vecSize, Param.freeSize, h3, h4]
  simp [Kind.freeSize, Kind.vecSize]

theorem Ready.legal {p : Param} {d : ℕ} (h : Ready p d) (v : List ℝ) (hv : v.length = p.vecSize) :
    p.LegalVec v ↔ (∀ i j : Fin d, 0 < asMatrix d (betaArr d v) i j) ∧ (asMatrix d (lamArr d v)).PosDef := by
  rw [h.vecSize] at hv
  obtain ⟨hd, l1, l2, rfl, h1, h2, -, -⟩ := h.pair
  have f1 : l1.vecSize = d * d := by rw [Leaf.vecSize, h1]; simp [Kind.vecSize]
  have f2 : l2.vecSize = vecSizeOf d := by rw [Leaf.vecSize, h2]; simp [Kind.vecSize]
  simp only [Param.LegalVec, Entries.LegalVec, and_true, Param.vecSize, f1, f2, h1, h2, Kind.LegalVec, legalTri_iff,
    zero_smul, sub_zero]
  have e1 : (v.drop (d * d)).take (vecSizeOf d) = v.drop (d * d) := List.take_of_length_le (by simp; omega)
  rw [e1]
  refine and_congr ?_ Iff.rfl
  have hl : (v.take (d * d)).length = d * d := by simp; omega
  constructor
  · intro h0 i j
    have hlt : (i : ℕ) * d + j < (v.take (d * d)).length := by
      rw [hl]
      exact Arr.lt_mul_add i.2 j.2
    have hm := (h0 _ (List.getElem_mem hlt)).1
    have : asMatrix d (betaArr d v) i j = (v.take (d * d))[(i : ℕ) * d + j] := by
      simp only [asMatrix, Matrix.of_apply, Arr.at2, betaArr, List.getD_cons_succ, List.getD_cons_zero]
      rw [List.getD_eq_getElem _ _ hlt]
    rw [this]
    simpa using hm
  · intro h0 a ha
    refine ⟨?_, by simp⟩
    obtain ⟨k, hk, rfl⟩ := List.getElem_of_mem ha
    rw [hl] at hk
    have hd : 0 < d := by
      rcases Nat.eq_zero_or_pos d with rfl | h
      · simp at hk
      · exact h
    have := h0 ⟨k / d, Nat.div_lt_of_lt_mul hk⟩ ⟨k % d, Nat.mod_lt _ hd⟩
    simp only [asMatrix, Matrix.of_apply, Arr.at2, betaArr, List.getD_cons_succ, List.getD_cons_zero,
      Nat.div_add_mod'] at this
    rw [List.getD_eq_getElem _ _ (by rw [hl]; exact hk)] at this
    simpa using this

/-- What the dictionary holds after `set_free`, in terms of the vector. -/
theorem Ready.setFree {p : Param} {d : ℕ} (h : Ready p d) {z : List ℝ} (hz : z.length = p.freeSize) :
    ∃ v q, p.freeToVectorVal z = .ok v ∧ v.length = p.vecSize ∧ p.LegalVec v ∧ p.setFree z = (q, none) ∧
      Holds q "beta" (betaArr d v) ∧ Holds q "lambda" (lamArr d v) := by
  obtain ⟨eigh, he, hb⟩ := h.built
  have hw := hb.wf he
  have hval := p.freeToVectorVal_ok hw h.hasParams z hz
  refine ⟨p.ftvP z, p.freeP z, hval.1, hval.2, ?_, p.setFree_ok hw z hz, ?_⟩
  · exact (p.legal_ftvP hw _ hval.2).2 ⟨z, hz, rfl⟩
  · rw [← p.vecP_ftvP hw z hz]
    have hv := hval.2
    rw [h.vecSize] at hv
    generalize p.ftvP z = v at hv
    obtain ⟨hd, l1, l2, rfl, h1, h2, -, -⟩ := h.pair
    have f1 : l1.vecSize = d * d := by rw [Leaf.vecSize, h1]; simp [Kind.vecSize]
    have f2 : l2.vecSize = vecSizeOf d := by rw [Leaf.vecSize, h2]; simp [Kind.vecSize]
    have e1 : (v.drop (d * d)).take (vecSizeOf d) = v.drop (d * d) := List.take_of_length_le (by simp; omega)
    simp only [Param.vecP, Entries.vecE, Param.vecSize, f1, f2, h1, h2, vectorVal, e1]
    constructor
    · simp [Holds, Param.viewGet, Entries.find]; rfl
    · simp [Holds, Param.viewGet, Entries.find]; rfl

/-! ### The value of the objective -/

section value

variable {N d : ℕ} {y x w : Arr}

/-- The weights, the regressors and the responses. -/
abbrev wV (N : ℕ) (w : Arr) : Fin N → ℝ := fun n => w.get [(n : ℕ)]

theorem resid_apply (b : Arr) (n : Fin N) (j : Fin d) :
    Mle.resid (toMatrix N d x) (toMatrix N d y) (asMatrix d b) n j = residual d y x b n j := rfl

theorem scatter_apply (b : Arr) (i j : Fin d) :
    Mle.scatter (wV N w) (toMatrix N d x) (toMatrix N d y) (asMatrix d b) i j =
      ∑ n : Fin N, w.get [(n : ℕ)] * residual d y x b n i * residual d y x b n j := by
  unfold Mle.scatter
  rw [Matrix.mul_apply]
  refine Finset.sum_congr rfl fun n _ => ?_
  rw [Matrix.mul_diagonal, Matrix.transpose_apply, resid_apply, resid_apply]
  ring

theorem score_apply (b : Arr) (i j : Fin d) :
    Mle.score (wV N w) (toMatrix N d x) (toMatrix N d y) (asMatrix d b) i j =
      ∑ n : Fin N, w.get [(n : ℕ)] * x.at2 n i * residual d y x b n j := by
  unfold Mle.score
  rw [Matrix.mul_apply]
  refine Finset.sum_congr rfl fun n _ => ?_
  rw [Matrix.mul_diagonal, Matrix.transpose_apply, resid_apply]
  simp only [toMatrix, Matrix.of_apply]
  ring

theorem gram_eq : Mle.gram (wV N w) (toMatrix N d x) = gramMatrix N d x w := by
  ext i j
  unfold Mle.gram gramMatrix
  rw [Matrix.mul_apply, Matrix.of_apply]
  refine Finset.sum_congr rfl fun n _ => ?_
  rw [Matrix.mul_diagonal, Matrix.transpose_apply]
  simp only [toMatrix, Matrix.of_apply]
  ring

theorem equations_iff (b l : Arr) : LikelihoodEquations N d y x w b l ↔
    Mle.score (wV N w) (toMatrix N d x) (toMatrix N d y) (asMatrix d b) = 0 ∧
      Mle.scatter (wV N w) (toMatrix N d x) (toMatrix N d y) (asMatrix d b) =
        (∑ n, wV N w n) • (asMatrix d l)⁻¹ := by
  unfold LikelihoodEquations
  refine and_congr ?_ ?_
  · rw [← Matrix.ext_iff]
    refine forall₂_congr fun i j => ?_
    rw [score_apply, Matrix.zero_apply]
  · rw [← Matrix.ext_iff]
    refine forall₂_congr fun i j => ?_
    rw [scatter_apply, Matrix.smul_apply, smul_eq_mul]

theorem trace_scatter (b l : Arr) :
    (asMatrix d l * Mle.scatter (wV N w) (toMatrix N d x) (toMatrix N d y) (asMatrix d b)).trace =
      ∑ n : Fin N, w.get [(n : ℕ)] * ∑ i : Fin d, ∑ j : Fin d,
        residual d y x b n i * l.at2 i j * residual d y x b n j := by
  have e : ∀ i : Fin d,
      (asMatrix d l * Mle.scatter (wV N w) (toMatrix N d x) (toMatrix N d y) (asMatrix d b)) i i =
        ∑ n : Fin N, ∑ j : Fin d,
          l.at2 i j * (w.get [(n : ℕ)] * residual d y x b n j * residual d y x b n i) := by
    intro i
    rw [Matrix.mul_apply, Finset.sum_comm]
    refine Finset.sum_congr rfl fun j _ => ?_
    rw [scatter_apply, Finset.mul_sum]
    rfl
  unfold Matrix.trace
  simp only [Matrix.diag_apply, e]
  rw [Finset.sum_comm]
  simp only [Finset.mul_sum]
  refine Finset.sum_congr rfl fun n _ => Finset.sum_congr rfl fun i _ => Finset.sum_congr rfl fun j _ => ?_
  ring

theorem nll_eq (b l : Arr) (hl : (asMatrix d l).PosDef) :
    Mle.nll (wV N w) (toMatrix N d x) (toMatrix N d y) (asMatrix d b) (asMatrix d l) =
      -weightedLogLik N d y x w b l - (∑ n : Fin N, w.get [(n : ℕ)]) * (0.5 * d * Real.log (2 * Real.pi)) := by
  unfold Mle.nll weightedLogLik
  rw [trace_scatter]
  simp only [log_mvnPdf hl]
  have hm : ∀ (n : Fin N) (j : Fin d), (meanOf d x b n).get [(j : ℕ)] = ∑ k : Fin d, x.at2 n k * b.at2 k j := by
    intro n j
    unfold meanOf
    rw [Arr.get_ofFn _ (.cons j.2 .nil)]
    rfl
  simp only [hm]
  rw [Finset.mul_sum, mul_assoc, Finset.sum_mul, Finset.mul_sum, Finset.sum_mul, ← Finset.sum_sub_distrib,
    ← Finset.sum_neg_distrib, ← Finset.sum_sub_distrib]
  refine Finset.sum_congr rfl fun n _ => ?_
  unfold residual
  ring

theorem loglik_ok (hD : Data N d y x w) {p : Param} {b l : Arr} (hb : Holds p "beta" b) (hl : Holds p "lambda" l)
    (hbs : b.shape = [d, d]) (hls : l.shape = [d, d]) (hpd : (asMatrix d l).PosDef) :
    loglik p y x w = .ok (-Mle.nll (wV N w) (toMatrix N d x) (toMatrix N d y) (asMatrix d b) (asMatrix d l)) := by
  unfold loglik
  rw [hb.item, py_ok_bind, hl.item, py_ok_bind, matmul_ok hD.x.2 hbs, py_ok_bind]
  unfold Arr.minus
  rw [Arr.bin_same _ hD.y.2 (by simp [Arr.ofFn2_shape]), py_ok_bind, einsumAll_quad (N := N) (d := d) rfl hls hD.w.2,
    py_ok_bind, logDet_ok hls hpd, py_ok_bind]
  unfold Mle.nll
  rw [trace_scatter, sumAll_vec hD.w]
  congr 1
  have : ∑ n ∈ Finset.range N, ∑ i ∈ Finset.range d, ∑ j ∈ Finset.range d,
      (Arr.ofFn [N, d] fun idx => y.get idx - (Arr.ofFn2 N d fun i k =>
        ∑ j ∈ Finset.range d, x.at2 i j * b.at2 j k).get idx).at2 n i * (l.at2 i j *
      ((Arr.ofFn [N, d] fun idx => y.get idx - (Arr.ofFn2 N d fun i k =>
        ∑ j ∈ Finset.range d, x.at2 i j * b.at2 j k).get idx).at2 n j * w.get [n])) =
      ∑ n : Fin N, w.get [(n : ℕ)] * ∑ i : Fin d, ∑ j : Fin d,
        residual d y x b n i * l.at2 i j * residual d y x b n j := by
    have hr : ∀ (n : Fin N) (j : Fin d), (Arr.ofFn [N, d] fun idx => y.get idx - (Arr.ofFn2 N d fun i k =>
        ∑ j ∈ Finset.range d, x.at2 i j * b.at2 j k).get idx).at2 n j = residual d y x b n j := by
      intro n j
      rw [Arr.at2_ofFn _ n.2 j.2, Arr.get_two hD.y.2, Arr.get_two rfl, Arr.at2_ofFn2 _ _ _ n.2 j.2, Finset.sum_range]
      rfl
    rw [Finset.sum_range]
    refine Finset.sum_congr rfl fun n _ => ?_
    rw [Finset.sum_range, Finset.mul_sum]
    refine Finset.sum_congr rfl fun i _ => ?_
    rw [Finset.sum_range, Finset.mul_sum]
    refine Finset.sum_congr rfl fun j _ => ?_
    rw [hr, hr]
    ring
  rw [this]
  ring

/-- The objective at a free vector, in terms of the vector. -/
theorem objective_ok (hD : Data N d y x w) {p : Param} (h : Ready p d) {z : List ℝ} (hz : z.length = p.freeSize) :
    ∃ v q, p.freeToVectorVal z = .ok v ∧ v.length = p.vecSize ∧ p.LegalVec v ∧
      Holds q "beta" (betaArr d v) ∧ Holds q "lambda" (lamArr d v) ∧
      evalObjective p y x w z = (q, .ok (Mle.nll (wV N w) (toMatrix N d x) (toMatrix N d y)
        (asMatrix d (betaArr d v)) (asMatrix d (lamArr d v)))) := by
  obtain ⟨v, q, h1, h2, h3, h4, h5, h6⟩ := h.setFree hz
  refine ⟨v, q, h1, h2, h3, h5, h6, ?_⟩
  unfold evalObjective
  rw [h4]
  simp only
  rw [loglik_ok hD h5 h6 rfl rfl ((h.legal v h2).1 h3).2, py_ok_bind]
  congr 2
  ring

/-! ### Vectors close to a vector -/

/-- The vector of a coefficient matrix and a precision. -/
def enc (d : ℕ) (B L : Matrix (Fin d) (Fin d) ℝ) : List ℝ :=
  (Arr.ofFn2 d d fun i j => if h : i < d ∧ j < d then B ⟨i, h.1⟩ ⟨j, h.2⟩ else 0).data ++
    lowerVec d (Arr.ofFn2 d d fun i j => if h : i < d ∧ j < d then L ⟨i, h.1⟩ ⟨j, h.2⟩ else 0)

theorem arrOf_matrix (B : Matrix (Fin d) (Fin d) ℝ) :
    asMatrix d (Arr.ofFn2 d d fun i j => if h : i < d ∧ j < d then B ⟨i, h.1⟩ ⟨j, h.2⟩ else 0) = B := by
  ext i j
  simp only [asMatrix, Matrix.of_apply]
  rw [Arr.at2_ofFn2 _ _ _ i.2 j.2, dif_pos ⟨i.2, j.2⟩]

theorem ofFn2_data_length (f : ℕ → ℕ → ℝ) : (Arr.ofFn2 d d f).data.length = d * d := by
  have := Arr.ofFn2_WF d d f
  simpa [Arr.WF, Arr.ofFn2_shape] using this

theorem enc_length (B L : Matrix (Fin d) (Fin d) ℝ) : (enc d B L).length = d * d + vecSizeOf d := by
  unfold enc
  rw [List.length_append, ofFn2_data_length]
  simp [lowerVec, vecSizeOf_eq]

theorem enc_beta (B L : Matrix (Fin d) (Fin d) ℝ) : asMatrix d (betaArr d (enc d B L)) = B := by
  have : betaArr d (enc d B L) =
      Arr.ofFn2 d d fun i j => if h : i < d ∧ j < d then B ⟨i, h.1⟩ ⟨j, h.2⟩ else 0 := by
    unfold betaArr enc
    rw [List.take_left' (ofFn2_data_length _)]
    rfl
  rw [this, arrOf_matrix]

theorem enc_lam (B L : Matrix (Fin d) (Fin d) ℝ) (hL : L.transpose = L) : asMatrix d (lamArr d (enc d B L)) = L := by
  have : lamArr d (enc d B L) =
      Arr.ofFn2 d d fun i j => if h : i < d ∧ j < d then L ⟨i, h.1⟩ ⟨j, h.2⟩ else 0 := by
    unfold lamArr enc
    rw [List.drop_left' (ofFn2_data_length _)]
    refine symMat_of_lowerVec ⟨Arr.ofFn2_WF _ _ _, rfl⟩ ?_
    have hsym : ∀ i j : Fin d, L i j = L j i := fun i j => by
      conv_lhs => rw [← hL]
      rfl
    refine transpose_data_ofFn2 fun i hi j hj => ?_
    rw [dif_pos ⟨hi, hj⟩, dif_pos ⟨hj, hi⟩]
    exact hsym _ _
  rw [this, arrOf_matrix]

theorem getD_map_close {α : Type} (idx : List α) (f g : α → ℝ) {ε : ℝ} (hε : 0 < ε) (h : ∀ a ∈ idx, |f a - g a| < ε)
    (i : ℕ) : |(idx.map f).getD i 0 - (idx.map g).getD i 0| < ε := by
  rcases lt_or_ge i idx.length with hi | hi
  · simpa [List.getD_eq_getElem?_getD, hi] using h _ (List.getElem_mem hi)
  · simpa [List.getD_eq_getElem?_getD, hi] using hε

theorem arrOf_asMatrix {a : Arr} (ha : IsMat a d d) :
    (Arr.ofFn2 d d fun i j => if h : i < d ∧ j < d then asMatrix d a ⟨i, h.1⟩ ⟨j, h.2⟩ else 0) = a := by
  rw [Arr.ofFn2_eq_ofFn]
  refine (Arr.eq_ofFn ha.1 ha.2 fun idx hi => ?_).symm
  obtain ⟨i, j, rfl, hi, hj⟩ := Arr.exists_of_forall₂_two hi
  simp only [List.getD_cons_zero, List.getD_cons_succ]
  rw [dif_pos ⟨hi, hj⟩, Arr.get_two ha.2]
  rfl

theorem enc_dec {v : List ℝ} (hv : v.length = d * d + vecSizeOf d) :
    enc d (asMatrix d (betaArr d v)) (asMatrix d (lamArr d v)) = v := by
  unfold enc
  rw [arrOf_asMatrix, arrOf_asMatrix]
  · unfold betaArr lamArr
    rw [lowerVec_symMat (by simp; omega)]
    exact List.take_append_drop _ _
  · exact ⟨Arr.ofFn2_WF _ _ _, rfl⟩
  · refine ⟨?_, rfl⟩
    simp [Arr.WF, betaArr]
    omega

theorem enc_close {B L B' L' : Matrix (Fin d) (Fin d) ℝ} {ε : ℝ} (hε : 0 < ε) (hB : ∀ i j, |B' i j - B i j| < ε)
    (hL : ∀ i j, |L' i j - L i j| < ε) (n : ℕ) : Within n ε (enc d B' L') (enc d B L) := by
  intro k _
  have split : ∀ B L : Matrix (Fin d) (Fin d) ℝ, (enc d B L) =
      ((indexProduct [d, d]).map fun idx => if h : idx.getD 0 0 < d ∧ idx.getD 1 0 < d then
        B ⟨idx.getD 0 0, h.1⟩ ⟨idx.getD 1 0, h.2⟩ else 0) ++ (trilIndices d).map fun q =>
          if h : q.1 < d ∧ q.2 < d then L ⟨q.1, h.1⟩ ⟨q.2, h.2⟩ else 0 := by
    intro B L
    unfold enc
    congr 1
    · rw [Arr.ofFn2_eq_ofFn]
      rfl
    · unfold lowerVec
      refine List.map_congr_left fun q hq => ?_
      obtain ⟨h1, h2⟩ := mem_trilIndices.1 hq
      rw [Arr.at2_ofFn2 _ _ _ h2 (by omega)]
  rw [split, split]
  rcases lt_or_ge k (indexProduct [d, d]).length with hk | hk
  · rw [List.getD_append _ _ _ _ (by simpa using hk), List.getD_append _ _ _ _ (by simpa using hk)]
    refine getD_map_close _ _ _ hε (fun idx _ => ?_) k
    split_ifs
    · exact hB _ _
    · simpa using hε
  · rw [List.getD_append_right _ _ _ _ (by simpa using hk), List.getD_append_right _ _ _ _ (by simpa using hk)]
    simp only [List.length_map]
    refine getD_map_close _ _ _ hε (fun q _ => ?_) _
    split_ifs
    · exact hL _ _
    · simpa using hε

/-- At a local minimum the likelihood equations hold. -/
theorem stationary_of_min (hD : Data N d y x w) {p : Param} (h : Ready p d) {z v : List ℝ}
    (hz : z.length = p.freeSize) (hv : p.freeToVectorVal z = .ok v) (hm : ObjectiveLocalMin p y x w z) :
    LikelihoodEquations N d y x w (betaArr d v) (lamArr d v) := by
  obtain ⟨eigh, he, hb⟩ := h.built
  obtain ⟨v0, q, h1, h2, h3, -, -, h6⟩ := objective_ok hD h hz
  rw [hv] at h1
  cases h1
  obtain ⟨a, ha, ε, hε, hmin⟩ := hm
  rw [h6] at ha
  simp only [Except.ok.injEq] at ha
  subst ha
  obtain ⟨δ, hδ, hclose⟩ := (C149_homeomorphism he p hb h.hasParams z v hz hv ε hε).1
  obtain ⟨η, hη, hopen⟩ := C149_open he p hb h.hasParams h.sizes z v hz hv
  have hlen : v.length = d * d + vecSizeOf d := by rw [h2, h.vecSize]
  rw [equations_iff]
  refine Mle.stationary (wV N w) (toMatrix N d x) (toMatrix N d y) ((h.legal v h2).1 h3).2 (lt_min hδ hη)
    fun B' L' hB hL hs => ?_
  have hwin : ∀ e, min δ η ≤ e → Within p.vecSize e (enc d B' L') v := by
    intro e hle
    have hpos : 0 < e := lt_of_lt_of_le (lt_min hδ hη) hle
    have := enc_close hpos (fun i j => lt_of_lt_of_le (hB i j) hle) (fun i j => lt_of_lt_of_le (hL i j) hle) p.vecSize
    rwa [enc_dec hlen] at this
  obtain ⟨z', hz', hv'⟩ := hopen (enc d B' L') (by rw [enc_length, h.vecSize]) (hwin η (min_le_right _ _))
  have hnear := hclose z' _ hz' hv' (hwin δ (min_le_left _ _))
  obtain ⟨v1, q1, g1, -, -, -, -, g6⟩ := objective_ok hD h hz'
  rw [hv'] at g1
  cases g1
  have := hmin z' _ hz' hnear (by rw [g6])
  rwa [enc_beta, enc_lam _ _ hs] at this

end value

end

end Example

noncomputable section

open Example

/-! ### C179 -/

/-- **C179** (value) For every free vector of the right length and after any history of calls,
`eval_objective` returns a number: minus the weighted log likelihood of the values it leaves in the
dictionary, up to a constant that does not depend on the parameters.  It does not raise; the assertion that
the determinant is positive never fails. -/
theorem C179_value (d N : ℕ) (y x w : Arr) (hD : Data N d y x w) (ops : List ParamOp) (p₀ : Param)
    (hp : params d = .ok p₀) (z : List ℝ) (hz : z.length = (p₀.run ops).freeSize) :
    ∃ q b l, evalObjective (p₀.run ops) y x w z = (q, .ok (-weightedLogLik N d y x w b l -
        (∑ n : Fin N, w.get [(n : ℕ)]) * (0.5 * d * Real.log (2 * Real.pi)))) ∧
      Holds q "beta" b ∧ Holds q "lambda" l ∧ IsMat b d d ∧ IsMat l d d ∧
      (∀ i j : Fin d, 0 < b.at2 i j) ∧ (asMatrix d l).PosDef := by
  obtain ⟨p, hp', hr⟩ := params_ready d
  rw [hp] at hp'
  cases hp'
  obtain ⟨v, q, h1, h2, h3, h4, h5, h6⟩ := objective_ok hD (hr ops) hz
  obtain ⟨hb, hl⟩ := ((hr ops).legal v h2).1 h3
  refine ⟨q, _, _, ?_, h4, h5, ⟨?_, rfl⟩, ⟨Arr.ofFn2_WF _ _ _, rfl⟩, hb, hl⟩
  · rw [h6, nll_eq _ _ hl]
  · rw [(hr ops).vecSize] at h2
    simp [Arr.WF, betaArr]
    omega

/-- **C179** (fit) With weights that are not negative, a free vector is a local minimizer of `eval_objective`
exactly when the values it stands for solve the likelihood equations: the weighted normal equations for
`beta`, and `lambda` is the inverse of the weighted covariance of the residuals. -/
theorem C179_fit (d N : ℕ) (y x w : Arr) (hD : Data N d y x w) (hw : ∀ n < N, 0 ≤ w.get [n]) (ops : List ParamOp)
    (p₀ : Param) (hp : params d = .ok p₀) (z : List ℝ) (hz : z.length = (p₀.run ops).freeSize) (b l : Arr)
    (hb : Holds (evalObjective (p₀.run ops) y x w z).1 "beta" b)
    (hl : Holds (evalObjective (p₀.run ops) y x w z).1 "lambda" l) :
    ObjectiveLocalMin (p₀.run ops) y x w z ↔ LikelihoodEquations N d y x w b l := by
  obtain ⟨p, hp', hr⟩ := params_ready d
  rw [hp] at hp'
  cases hp'
  obtain ⟨v, q, h1, h2, h3, h4, h5, h6⟩ := objective_ok hD (hr ops) hz
  obtain ⟨-, hpd⟩ := ((hr ops).legal v h2).1 h3
  rw [h6] at hb hl
  have eb : b = betaArr d v := by simpa [Holds] using hb.symm.trans h4
  have el : l = lamArr d v := by simpa [Holds] using hl.symm.trans h5
  subst eb el
  refine ⟨fun hm => stationary_of_min hD (hr ops) hz h1 hm, fun he => ?_⟩
  rw [equations_iff] at he
  refine ⟨_, by rw [h6], 1, one_pos, fun z' a' hz' _ ha' => ?_⟩
  obtain ⟨v', q', g1, g2, g3, -, -, g6⟩ := objective_ok hD (hr ops) hz'
  rw [g6] at ha'
  simp only [Except.ok.injEq] at ha'
  rw [← ha']
  exact (Mle.global (wV N w) _ _ hpd (fun n => hw n n.2) he.1 he.2 _ _ (((hr ops).legal v' g2).1 g3).2).1

/-- **C179** (global) A local minimizer of `eval_objective` is a global one; when the weighted Gram matrix of
the regressors is positive definite, no other free vector has the same value, so that the fit does not depend
on where the optimizer starts. -/
theorem C179_global (d N : ℕ) (y x w : Arr) (hD : Data N d y x w) (hw : ∀ n < N, 0 ≤ w.get [n]) (ops : List ParamOp)
    (p₀ : Param) (hp : params d = .ok p₀) (z : List ℝ) (hz : z.length = (p₀.run ops).freeSize)
    (hm : ObjectiveLocalMin (p₀.run ops) y x w z) (z' : List ℝ) (hz' : z'.length = (p₀.run ops).freeSize) :
    ∃ a a', (evalObjective (p₀.run ops) y x w z).2 = .ok a ∧ (evalObjective (p₀.run ops) y x w z').2 = .ok a' ∧
      a ≤ a' ∧ ((gramMatrix N d x w).PosDef → a' = a → z' = z) := by
  obtain ⟨p, hp', hr⟩ := params_ready d
  rw [hp] at hp'
  cases hp'
  obtain ⟨v, q, h1, h2, h3, h4, h5, h6⟩ := objective_ok hD (hr ops) hz
  obtain ⟨v', q', g1, g2, g3, -, -, g6⟩ := objective_ok hD (hr ops) hz'
  have he := stationary_of_min hD (hr ops) hz h1 hm
  rw [equations_iff] at he
  have hg := Mle.global (wV N w) _ _ (((hr ops).legal v h2).1 h3).2 (fun n => hw n n.2) he.1 he.2
    (asMatrix d (betaArr d v')) _ (((hr ops).legal v' g2).1 g3).2
  refine ⟨_, _, by rw [h6], by rw [g6], hg.1, fun hpd heq => ?_⟩
  rw [← gram_eq] at hpd
  obtain ⟨eb, el⟩ := hg.2 hpd heq
  have hlen : v.length = d * d + vecSizeOf d := by rw [h2, (hr ops).vecSize]
  have hlen' : v'.length = d * d + vecSizeOf d := by rw [g2, (hr ops).vecSize]
  have hvv : v' = v := by rw [← enc_dec hlen', eb, el, enc_dec hlen]
  obtain ⟨eigh, hei, hbt⟩ := (hr ops).built
  obtain ⟨u, -, hu⟩ := (C150_image hei _ hbt (hr ops).hasParams v h2).1 h3
  rw [hu z ⟨hz, h1⟩, hu z' ⟨hz', by rw [g1, hvv]⟩]

/-- **C179** (existence) There is a fit exactly when some positive coefficients and some positive definite
precision solve the likelihood equations; otherwise the optimizer has nothing to converge to. -/
theorem C179_existence (d N : ℕ) (y x w : Arr) (hD : Data N d y x w) (hw : ∀ n < N, 0 ≤ w.get [n])
    (ops : List ParamOp) (p₀ : Param) (hp : params d = .ok p₀) :
    (∃ z : List ℝ, z.length = (p₀.run ops).freeSize ∧ ObjectiveLocalMin (p₀.run ops) y x w z) ↔
      ∃ b l, IsMat b d d ∧ IsMat l d d ∧ (∀ i j : Fin d, 0 < b.at2 i j) ∧ (asMatrix d l).PosDef ∧
        LikelihoodEquations N d y x w b l := by
  obtain ⟨p, hp', hr⟩ := params_ready d
  rw [hp] at hp'
  cases hp'
  constructor
  · rintro ⟨z, hz, hm⟩
    obtain ⟨q, b, l, h1, h2, h3, h4, h5, h6, h7⟩ := C179_value d N y x w hD ops p₀ hp z hz
    refine ⟨b, l, h4, h5, h6, h7, (C179_fit d N y x w hD hw ops p₀ hp z hz b l ?_ ?_).1 hm⟩
    · rw [h1]; exact h2
    · rw [h1]; exact h3
  · rintro ⟨b, l, hb, hl, hpos, hpd, he⟩
    set v := enc d (asMatrix d b) (asMatrix d l) with hv
    have hvl : v.length = (p₀.run ops).vecSize := by rw [hv, enc_length, (hr ops).vecSize]
    have e1 : betaArr d v = b := by
      have := arrOf_asMatrix (d := d) (a := betaArr d v) ⟨by
        rw [hv]; simp [Arr.WF, betaArr, enc_length], rfl⟩
      rw [← this, hv, enc_beta, arrOf_asMatrix hb]
    have e2 : lamArr d v = l := by
      have := arrOf_asMatrix (d := d) (a := lamArr d v) ⟨Arr.ofFn2_WF _ _ _, rfl⟩
      rw [← this, hv, enc_lam _ _ (Mle.symm_of_posDef hpd), arrOf_asMatrix hl]
    have hleg : (p₀.run ops).LegalVec v := by
      rw [(hr ops).legal v hvl, e1, e2]
      exact ⟨hpos, hpd⟩
    obtain ⟨eigh, hei, hbt⟩ := (hr ops).built
    obtain ⟨z, ⟨hz, hzv⟩, -⟩ := (C150_image hei _ hbt (hr ops).hasParams v hvl).1 hleg
    obtain ⟨v', q, h1, h2, h3, h4, h5, h6⟩ := objective_ok hD (hr ops) hz
    rw [hzv] at h1
    cases h1
    refine ⟨z, hz, (C179_fit d N y x w hD hw ops p₀ hp z hz b l ?_ ?_).2 he⟩
    · rw [h6, ← e1]; exact h4
    · rw [h6, ← e2]; exact h5

/-- The hypotheses are met: with one regressor, always 1, the responses 1 and 3 and weights 1, the fit has
`beta = 2` and `lambda = 1`; the Gram matrix is positive definite. -/
example : ∃ (p₀ : Param) (y x w : Arr), params 1 = .ok p₀ ∧ Data 2 1 y x w ∧ (∀ n < 2, 0 ≤ w.get [n]) ∧
    (gramMatrix 2 1 x w).PosDef ∧
    ∃ z : List ℝ, z.length = (p₀.run []).freeSize ∧ ObjectiveLocalMin (p₀.run []) y x w z := by
  obtain ⟨p, hp, -⟩ := params_ready 1
  have hD : Data 2 1 ⟨[2, 1], [1, 3]⟩ ⟨[2, 1], [1, 1]⟩ ⟨[2], [1, 1]⟩ :=
    ⟨⟨rfl, rfl⟩, ⟨rfl, rfl⟩, ⟨rfl, rfl⟩⟩
  have hw : ∀ n < 2, 0 ≤ (⟨[2], [1, 1]⟩ : Arr).get [n] := by
    intro n hn
    interval_cases n <;> simp [Arr.get, Arr.flat]
  have one : asMatrix 1 ⟨[1, 1], [1]⟩ = 1 := by
    ext i j
    fin_cases i; fin_cases j
    simp [asMatrix, Arr.at2]
  refine ⟨p, _, _, _, hp, hD, hw, ?_, (C179_existence 1 2 _ _ _ hD hw [] p hp).2
    ⟨⟨[1, 1], [2]⟩, ⟨[1, 1], [1]⟩, ⟨rfl, rfl⟩, ⟨rfl, rfl⟩, ?_, ?_, ?_, ?_⟩⟩
  · have : gramMatrix 2 1 ⟨[2, 1], [1, 1]⟩ ⟨[2], [1, 1]⟩ = (2 : ℝ) • 1 := by
      ext i j
      fin_cases i; fin_cases j
      simp [gramMatrix, Arr.at2, Arr.get, Arr.flat, Fin.sum_univ_two]
      norm_num
    rw [this]
    exact Matrix.PosDef.one.smul (by norm_num)
  · intro i j
    fin_cases i; fin_cases j
    simp [Arr.at2]
  · rw [one]
    exact Matrix.PosDef.one
  · intro i j
    fin_cases i; fin_cases j
    simp [Example.residual, Arr.at2, Arr.get, Arr.flat, Fin.sum_univ_two]
    norm_num
  · intro i j
    rw [one]
    fin_cases i; fin_cases j
    simp [Example.residual, Arr.at2, Arr.get, Arr.flat, Fin.sum_univ_two]
    norm_num

end

end LRVB
