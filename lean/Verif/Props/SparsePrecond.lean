import Verif.Model.SparsePrecond
import Verif.Props.Sparse
import Verif.Props.Minimize

/-!
# C128: sparse preconditioners
-/

namespace LRVB

open Classical

/-! ### The loops of scipy -/

theorem foldl_add {α : Type} (f : α → ℝ) (l : List α) (s : ℝ) :
    l.foldl (fun s k => s + f k) s = s + (l.map f).sum := by
  induction l generalizing s with
  | nil => simp
  | cons a t ih => rw [List.foldl_cons, ih]; simp [add_assoc]

theorem getD_modify (y : List ℝ) (i j : ℕ) (c : ℝ) :
    (y.modify i (· + c)).getD j 0 = y.getD j 0 + if i = j ∧ j < y.length then c else 0 := by
  simp only [List.getD_eq_getElem?_getD, List.getElem?_modify]
  by_cases hj : j < y.length
  · rw [List.getElem?_eq_getElem hj]
    by_cases hi : i = j <;> simp [hi, hj]
  · rw [List.getElem?_eq_none (by omega)]
    simp [hj]

theorem foldl_modify {α : Type} (idx : α → ℕ) (c : α → ℝ) (l : List α) (y : List ℝ) :
    (l.foldl (fun y k => y.modify (idx k) (· + c k)) y).length = y.length ∧
    ∀ j < y.length, (l.foldl (fun y k => y.modify (idx k) (· + c k)) y).getD j 0 =
      y.getD j 0 + (l.map fun k => if idx k = j then c k else 0).sum := by
  induction l generalizing y with
  | nil => simp
  | cons a t ih =>
    obtain ⟨h1, h2⟩ := ih (y.modify (idx a) (· + c a))
    refine ⟨by rw [List.foldl_cons, h1, List.length_modify], fun j hj => ?_⟩
    rw [List.foldl_cons, h2 j (by simpa using hj), getD_modify]
    simp [hj, add_assoc]

namespace Csr

theorem sum_rowRange (m : Csr) (f : ℕ → ℝ) (i : ℕ) : ((m.rowRange i).map f).sum =
    ∑ k ∈ Finset.Ico (m.indptr.getD i 0) (m.indptr.getD (i + 1) 0), f k := by
  unfold rowRange
  rw [Finset.sum_Ico_eq_sum_range, List.range'_eq_map_range, List.map_map, sum_list_range]
  rfl

theorem matvec_eq (m : Csr) (h : m.Readable) (x : List ℝ) :
    m.matvec x = (List.range m.nr).map fun i => ∑ j ∈ Finset.range m.nc, m.toDense i j * x.getD j 0 := by
  unfold matvec
  refine List.map_congr_left fun i hi => ?_
  have hi : i < m.nr := List.mem_range.mp hi
  rw [foldl_add, zero_add, sum_rowRange]
  simp only [toDense, Finset.sum_mul]
  rw [Finset.sum_comm]
  refine Finset.sum_congr rfl fun k hk => ?_
  have hk' : m.indices.getD k 0 < m.nc := by
    refine (h i hi k ?_).2.2
    unfold rowRange
    rw [List.mem_range'_1]
    have := Finset.mem_Ico.mp hk
    omega
  rw [Finset.sum_eq_single (m.indices.getD k 0)]
  · simp
  · intro b _ hb
    rw [if_neg (Ne.symm hb), zero_mul]
  · intro hn
    exact absurd (Finset.mem_range.mpr hk') hn

theorem matvecT_eq (m : Csr) (x : List ℝ) :
    m.matvecT x = (List.range m.nc).map fun j => ∑ i ∈ Finset.range m.nr, m.toDense i j * x.getD i 0 := by
  have key : ∀ (l : List ℕ) (y : List ℝ), y.length = m.nc →
      (l.foldl (fun y i => (m.rowRange i).foldl
        (fun y k => y.modify (m.indices.getD k 0) (· + m.data.getD k 0 * x.getD i 0)) y) y).length = m.nc ∧
      ∀ j < m.nc, (l.foldl (fun y i => (m.rowRange i).foldl
        (fun y k => y.modify (m.indices.getD k 0) (· + m.data.getD k 0 * x.getD i 0)) y) y).getD j 0 =
        y.getD j 0 + (l.map fun i => m.toDense i j * x.getD i 0).sum := by
    intro l
    induction l with
    | nil => intro y hy; simpa using hy
    | cons i t ih =>
      intro y hy
      obtain ⟨g1, g2⟩ := foldl_modify (fun k => m.indices.getD k 0) (fun k => m.data.getD k 0 * x.getD i 0)
        (m.rowRange i) y
      obtain ⟨h1, h2⟩ := ih _ (g1.trans hy)
      refine ⟨h1, fun j hj => ?_⟩
      rw [List.foldl_cons, h2 j hj, g2 j (by omega), sum_rowRange, List.map_cons, List.sum_cons, ← add_assoc]
      congr 2
      simp only [toDense, Finset.sum_mul, ite_mul, zero_mul]
  obtain ⟨h1, h2⟩ := key (List.range m.nr) (List.replicate m.nc 0) (by simp)
  refine List.ext_getElem (by simpa [matvecT] using h1) fun j hj hj' => ?_
  have hj2 : j < m.nc := by simpa using hj'
  have := h2 j hj2
  have h3 : (m.matvecT x).getD j 0 = (m.matvecT x)[j] := by
    rw [List.getD_eq_getElem?_getD, List.getElem?_eq_getElem hj]; rfl
  rw [← h3]
  refine this.trans ?_
  rw [sum_list_range]
  simp [List.getD_eq_getElem?_getD, hj2]

/-- A matrix built row by row, with columns in range, is readable. -/
theorem ofRows_readable (nr nc : ℕ) (row : ℕ → List (ℕ × ℝ)) (h : ∀ i < nr, ∀ e ∈ row i, e.1 < nc) :
    (ofRows nr nc row).Readable := by
  intro i hi k hk
  have hi : i < nr := hi
  have hw := ofRows_wf nr nc row
  have hlen : (ofRows nr nc row).data.length = ((List.range nr).map row).flatten.length := by
    simp only [ofRows, List.length_map]
  have hlen2 : (ofRows nr nc row).indices.length = ((List.range nr).map row).flatten.length := by
    simp only [ofRows, List.length_map]
  have hp : (ofRows nr nc row).indptr.getD (i + 1) 0 ≤ ((List.range nr).map row).flatten.length := by
    simp only [ofRows]
    rw [List.getD_eq_getElem?_getD, List.getElem?_map, List.getElem?_range (by omega)]
    simp only [Option.map_some, Option.getD_some]
    rw [List.length_flatten]
    conv_rhs => rw [← List.take_append_drop (i + 1) ((List.range nr).map row), List.map_append, List.sum_append]
    omega
  unfold rowRange at hk
  rw [List.mem_range'_1] at hk
  have hk2 : k < ((List.range nr).map row).flatten.length := by omega
  refine ⟨by omega, by omega, ?_⟩
  have hmem : ((List.range nr).map row).flatten[k] ∈ ((List.range nr).map row).flatten := List.getElem_mem _
  rw [List.mem_flatten] at hmem
  obtain ⟨l, hl, he⟩ := hmem
  obtain ⟨i', hi', rfl⟩ := List.mem_map.mp hl
  have := h i' (List.mem_range.mp hi') _ he
  simp only [ofRows]
  rw [List.getD_eq_getElem?_getD, List.getElem?_map, List.getElem?_eq_getElem hk2]
  simpa using this

theorem ofCoo_readable (m : Coo) : (ofCoo m).Readable := by
  refine ofRows_readable _ _ _ fun i _ e he => ?_
  obtain ⟨j, hj, rfl⟩ := List.mem_map.mp he
  exact List.mem_range.mp (List.mem_filter.mp hj).1

end Csr

/-! ### Products -/

/-- The sparse matrices that scipy can multiply with. -/
def Mat.Valid : Mat → Prop
  | .dense a => ∃ r c, IsMat a r c
  | .csr m => m.Readable
  | .csc m => m.Readable

theorem Mat.toArr_shape (P : Mat) (h : P.Valid) : ∃ r c, IsMat P.toArr r c := by
  cases P with
  | dense a => exact h
  | csr m => exact ⟨_, _, Arr.ofFn2_WF _ _ _, rfl⟩
  | csc m => exact ⟨_, _, Arr.ofFn2_WF _ _ _, rfl⟩

theorem safeMatVec_eq (P : Mat) (h : P.Valid) (x : List ℝ) : P.safeMatVec x = P.toArr.mulVec x := by
  cases P with
  | dense a => rfl
  | csr m =>
    simp only [Mat.safeMatVec, Mat.toArr, Arr.mulVec, Arr.ofFn2_shape]
    by_cases hx : x.length = m.nc
    · rw [if_neg (not_not.mpr hx), if_pos (show m.Readable from h), if_pos hx, m.matvec_eq h]
      congr 1
      refine List.map_congr_left fun i hi => Finset.sum_congr rfl fun j hj => ?_
      rw [Arr.at2_ofFn2 _ _ _ (List.mem_range.mp hi) (Finset.mem_range.mp hj)]
    · rw [if_pos hx, if_neg hx]
  | csc m =>
    simp only [Mat.safeMatVec, Mat.toArr, Arr.mulVec, Arr.ofFn2_shape]
    by_cases hx : x.length = m.nr
    · rw [if_neg (not_not.mpr hx), if_pos (show m.Readable from h), if_pos hx, m.matvecT_eq]
      congr 1
      refine List.map_congr_left fun i hi => Finset.sum_congr rfl fun j hj => ?_
      rw [Arr.at2_ofFn2 _ _ _ (List.mem_range.mp hi) (Finset.mem_range.mp hj)]
    · rw [if_pos hx, if_neg hx]

theorem column_getD (b : Arr) {r i : ℕ} (j : ℕ) (hi : i < r) : (Mat.column b r j).getD i 0 = b.at2 i j := by
  unfold Mat.column
  rw [List.getD_eq_getElem?_getD, List.getElem?_map, List.getElem?_range hi]
  rfl

theorem sparseMatmul_eq (P : Mat) (h : P.Valid) (hs : P.isSparse = true) (b : Arr) :
    P.sparseMatmul b = P.toArr.matmul b := by
  cases P with
  | dense a => exact absurd hs (by simp [Mat.isSparse])
  | csr m =>
    simp only [Mat.sparseMatmul, Mat.toArr, Arr.matmul, Arr.ofFn2_shape]
    rcases hb : b.shape with _ | ⟨r, _ | ⟨c, _ | _⟩⟩ <;> simp only
    by_cases hr : r = m.nc
    · rw [if_neg (not_not.mpr hr), if_pos (show m.Readable from h), if_pos hr.symm]
      congr 1
      refine Arr.ofFn2_congr fun i hi j hj => ?_
      rw [m.matvec_eq h, List.getD_eq_getElem?_getD, List.getElem?_map, List.getElem?_range hi]
      refine Finset.sum_congr rfl fun k hk => ?_
      have hk := Finset.mem_range.mp hk
      rw [Arr.at2_ofFn2 _ _ _ hi hk, column_getD b j (by omega)]
    · rw [if_pos hr, if_neg (Ne.symm hr)]
  | csc m =>
    simp only [Mat.sparseMatmul, Mat.toArr, Arr.matmul, Arr.ofFn2_shape]
    rcases hb : b.shape with _ | ⟨r, _ | ⟨c, _ | _⟩⟩ <;> simp only
    by_cases hr : r = m.nr
    · rw [if_neg (not_not.mpr hr), if_pos (show m.Readable from h), if_pos hr.symm]
      congr 1
      refine Arr.ofFn2_congr fun i hi j hj => ?_
      rw [m.matvecT_eq, List.getD_eq_getElem?_getD, List.getElem?_map, List.getElem?_range hi]
      refine Finset.sum_congr rfl fun k hk => ?_
      have hk := Finset.mem_range.mp hk
      rw [Arr.at2_ofFn2 _ _ _ hi hk, column_getD b j (by omega)]
    · rw [if_pos hr, if_neg (Ne.symm hr)]

theorem Mat.transpose_valid {P : Mat} (h : P.Valid) : P.transpose.Valid := by
  cases P with
  | dense a =>
    obtain ⟨r, c, hm⟩ := h
    exact ⟨c, r, Arr.ofFn2_WF _ _ _, by simp [hm.2]⟩
  | csr m => exact h
  | csc m => exact h

theorem Mat.transpose_toArr (P : Mat) : P.transpose.toArr = P.toArr.transpose := by
  cases P with
  | dense a => rfl
  | csr m =>
    refine Arr.ofFn2_congr fun i hi j hj => ?_
    simp only [Mat.toArr, Arr.ofFn2_shape] at hi hj ⊢
    rw [Arr.at2_ofFn2 _ _ _ (by simpa using hj) (by simpa using hi)]
  | csc m =>
    refine Arr.ofFn2_congr fun i hi j hj => ?_
    simp only [Mat.toArr, Arr.ofFn2_shape] at hi hj ⊢
    rw [Arr.at2_ofFn2 _ _ _ (by simpa using hj) (by simpa using hi)]

theorem at2_transpose {a : Arr} {r c : ℕ} (ha : a.shape = [r, c]) {i j : ℕ} (hi : i < c) (hj : j < r) :
    a.transpose.at2 i j = a.at2 j i := by
  unfold Arr.transpose
  rw [ha]
  exact Arr.at2_ofFn2 _ _ _ (by simpa using hi) (by simpa using hj)

/-- The transpose of a product of transposes. -/
theorem matmul_transposes {a b : Arr} {r c : ℕ} (ha : a.shape = [r, c]) {c' d : ℕ} (hb : b.shape = [c', d]) :
    (do .ok (← b.transpose.matmul a.transpose).transpose : Py Arr) = a.matmul b := by
  unfold Arr.matmul
  have h1 : b.transpose.shape = [d, c'] := by simp [hb]
  have h2 : a.transpose.shape = [c, r] := by simp [ha]
  rw [h1, h2, ha, hb]
  simp only
  by_cases hc : c = c'
  · subst hc
    rw [if_pos rfl, if_pos rfl, py_ok_bind]
    congr 1
    refine Arr.ofFn2_congr fun i hi j hj => ?_
    simp only [Arr.ofFn2_shape] at hi hj
    have hi : i < r := by simpa using hi
    have hj : j < d := by simpa using hj
    rw [Arr.at2_ofFn2 _ _ _ hj hi]
    refine Finset.sum_congr rfl fun k hk => ?_
    have hk := Finset.mem_range.mp hk
    rw [at2_transpose hb hj hk, at2_transpose ha hk hi, mul_comm]
  · rw [if_neg hc, if_neg (Ne.symm hc)]
    rfl

theorem safeMatmul_left (P : Mat) (h : P.Valid) (a : Arr) : (Mat.dense a).safeMatmul P = a.matmul P.toArr := by
  cases P with
  | dense b => rfl
  | csr m =>
    simp only [Mat.safeMatmul]
    rcases ha : a.shape with _ | ⟨r, _ | ⟨c, _ | _⟩⟩
    · simp [Arr.matmul, ha]
    · simp [Arr.matmul, ha]
    · simp only
      rw [sparseMatmul_eq _ (Mat.transpose_valid (P := .csr m) h) rfl, Mat.transpose_toArr]
      exact matmul_transposes ha (c' := m.nr) (d := m.nc) rfl
    · simp [Arr.matmul, ha]
  | csc m =>
    simp only [Mat.safeMatmul]
    rcases ha : a.shape with _ | ⟨r, _ | ⟨c, _ | _⟩⟩
    · simp [Arr.matmul, ha]
    · simp [Arr.matmul, ha]
    · simp only
      rw [sparseMatmul_eq _ (Mat.transpose_valid (P := .csc m) h) rfl, Mat.transpose_toArr]
      exact matmul_transposes ha (c' := m.nc) (d := m.nr) rfl
    · simp [Arr.matmul, ha]

theorem safeMatmul_right (P : Mat) (h : P.Valid) (b : Arr) : P.safeMatmul (.dense b) = P.toArr.matmul b := by
  cases P with
  | dense a => rfl
  | csr m => exact sparseMatmul_eq (.csr m) h rfl b
  | csc m => exact sparseMatmul_eq (.csc m) h rfl b

/-! ### C128 -/

/-- **C128** (products) Products of a sparse matrix with a vector, with a 2-d array from the left and from the
right are those of the dense matrix, also in what they raise. -/
theorem C128_safe_matmul (P : Mat) (h : P.Valid) :
    (∀ x, P.safeMatVec x = P.toArr.mulVec x) ∧
    (∀ b, P.safeMatmul (.dense b) = P.toArr.matmul b) ∧
    (∀ a, (Mat.dense a).safeMatmul P = a.matmul P.toArr) :=
  ⟨safeMatVec_eq P h, safeMatmul_right P h, safeMatmul_left P h⟩

/-- The same parameter and logger. -/
structure SameState {A : Type} (o o' : Objective A) : Prop where
  par : o.par = o'.par
  logger : o.logger = o'.logger

/-- **C128** (evaluations) For every sparse preconditioner, the value, gradient, Hessian and
Hessian-vector product of the preconditioned objective and the conversion of points are those for the
dense matrix with the same entries: the same result or exception, and the same parameter and logger
afterwards.  Missing: minimization, which raises for sparse preconditioners. -/
theorem C128_evaluations_partial {A : Type} (o : Objective A) (P : Mat) (h : P.Valid) (x vec : List ℝ) (a : A)
    (vb : Bool) :
    let d : Objective A := { o with precond := some P.toArr }
    ((o.funFreeCondM P x a vb).2 = (d.funFreeCond x a vb).2 ∧
      SameState (o.funFreeCondM P x a vb).1 (d.funFreeCond x a vb).1) ∧
    ((o.funFreeGradCondM P x a).2 = (d.funFreeGradCond x a).2 ∧
      SameState (o.funFreeGradCondM P x a).1 (d.funFreeGradCond x a).1) ∧
    ((o.funFreeHessianCondM P x a).2 = (d.funFreeHessianCond x a).2 ∧
      SameState (o.funFreeHessianCondM P x a).1 (d.funFreeHessianCond x a).1) ∧
    ((o.funFreeHvpCondM P x a vec).2 = (d.funFreeHvpCond x a vec).2 ∧
      SameState (o.funFreeHvpCondM P x a vec).1 (d.funFreeHvpCond x a vec).1) ∧
    P.safeMatVec x = d.unconditionX x := by
  intro d
  have ht := Mat.transpose_valid h
  have e1 := safeMatVec_eq P h
  have e2 : ∀ y, P.transpose.safeMatVec y = P.toArr.transpose.mulVec y := by
    intro y; rw [safeMatVec_eq _ ht, Mat.transpose_toArr]
  have e3 : ∀ b, P.transpose.safeMatmul (.dense b) = P.toArr.transpose.matmul b := by
    intro b; rw [safeMatmul_right _ ht, Mat.transpose_toArr]
  have e4 := safeMatmul_left P h
  have f1 : ∀ y, (o.funFree y a vb).2 = (d.funFree y a vb).2 ∧ SameState (o.funFree y a vb).1 (d.funFree y a vb).1 := by
    intro y
    unfold Objective.funFree
    simp only [d]
    split
    · exact ⟨rfl, rfl, rfl⟩
    · split
      · exact ⟨rfl, rfl, rfl⟩
      · split_ifs <;> exact ⟨rfl, rfl, rfl⟩
  refine ⟨?_, ?_, ?_, ?_, e1 x⟩
  · unfold Objective.funFreeCondM Objective.funFreeCond Objective.conditionedX
    simp only [d, e1]
    cases P.toArr.mulVec x with
    | error e => exact ⟨rfl, rfl, rfl⟩
    | ok y => exact f1 y
  · unfold Objective.funFreeGradCondM Objective.funFreeGradCond Objective.conditionedX
    simp only [d, e1, e2]
    cases P.toArr.mulVec x with
    | error e => exact ⟨rfl, rfl, rfl⟩
    | ok y => exact ⟨rfl, rfl, rfl⟩
  · unfold Objective.funFreeHessianCondM Objective.funFreeHessianCond Objective.conditionedX
    simp only [d, e1, e3, e4]
    cases P.toArr.mulVec x with
    | error e => exact ⟨rfl, rfl, rfl⟩
    | ok y => exact ⟨rfl, rfl, rfl⟩
  · unfold Objective.funFreeHvpCondM Objective.funFreeHvpCond Objective.conditionedX
    simp only [d, e1, e2]
    cases P.toArr.mulVec x with
    | error e => exact ⟨rfl, rfl, rfl⟩
    | ok y =>
      cases P.toArr.mulVec vec with
      | error e => exact ⟨rfl, rfl, rfl⟩
      | ok pv => exact ⟨rfl, rfl, rfl⟩

/-- **C128** `csr_matrix(a)` of a dense matrix and its transpose can be multiplied with, and have the entries
of the matrix. -/
theorem C128_conversion (a : Arr) {r c : ℕ} (ha : IsMat a r c) :
    (Mat.csr (MatArg.dense r c a.at2).toCsr).Valid ∧ (Mat.csr (MatArg.dense r c a.at2).toCsr).toArr = a := by
  have hf := (MatArg.dense r c a.at2).toCsr_facts trivial
  refine ⟨Csr.ofCoo_readable _, ?_⟩
  symm
  simp only [Mat.toArr]
  have h1 : (MatArg.dense r c a.at2).toCsr.nr = r := hf.2.1
  have h2 : (MatArg.dense r c a.at2).toCsr.nc = c := hf.2.2.1
  rw [h1, h2]
  refine Arr.ext2_ofFn2 ha.1 ha.2 fun i hi j hj => ?_
  exact (hf.2.2.2 i hi j hj).symm

theorem run_dense (useHvp disp : Bool) (o : Objective Unit) (P : Arr) (hP : o.precond = some P) (t : Optimizer) :
    ∀ p, SameObj o p →
      t.run (fun o x => o.funFreeCondM (.dense P) x () disp) (fun o x => o.funFreeGradCondM (.dense P) x ())
        (if useHvp then some fun o x v => o.funFreeHvpCondM (.dense P) x () v else none) p =
      t.run (fun o x => o.funFreeCond x () disp) (fun o x => o.funFreeGradCond x ())
        (if useHvp then some fun o x v => o.funFreeHvpCond x () v else none) p := by
  have g := good_cond o P hP disp useHvp
  have e1 : ∀ p x, SameObj o p → p.funFreeCondM (.dense P) x () disp = p.funFreeCond x () disp := by
    intro p x hp
    simp only [Objective.funFreeCondM, Objective.funFreeCond, hp.precond, hP]
    rfl
  have e2 : ∀ p x, SameObj o p → p.funFreeGradCondM (.dense P) x () = p.funFreeGradCond x () := by
    intro p x hp
    simp only [Objective.funFreeGradCondM, Objective.funFreeGradCond, hp.precond, hP]
    rfl
  have e3 : ∀ p x v, SameObj o p → p.funFreeHvpCondM (.dense P) x () v = p.funFreeHvpCond x () v := by
    intro p x v hp
    simp only [Objective.funFreeHvpCondM, Objective.funFreeHvpCond, hp.precond, hP]
    rfl
  induction t with
  | done r => intro p _; rfl
  | fail e => intro p _; rfl
  | value x k ih =>
    intro p hp
    simp only [Optimizer.run, e1 p x hp]
    cases (p.funFreeCond x () disp).2 with
    | error e => rfl
    | ok v => exact ih v _ (g.fnSame p x hp)
  | grad x k ih =>
    intro p hp
    simp only [Optimizer.run, e2 p x hp]
    cases (p.funFreeGradCond x ()).2 with
    | error e => rfl
    | ok v => exact ih v _ (g.jacSame p x hp)
  | hvp x v k ih =>
    intro p hp
    cases useHvp with
    | false => rfl
    | true =>
      have hs := g.hvpSame _ rfl p x v hp
      simp only [if_true] at ih ⊢
      simp only [Optimizer.run, e3 p x v hp]
      cases (p.funFreeHvpCond x () v).2 with
      | error e => rfl
      | ok w => exact ih w _ hs

/-- The minimization of `Model/OptUtils.lean` is the one with a dense preconditioner. -/
theorem minimizePreconditioned_dense (useHvp : Bool) (opt : List ℝ → Optimizer) (o : Objective Unit) (P : Arr)
    (hP : o.precond = some P) (initX : List ℝ) (disp : Bool) (printEvery : Option ℕ) (initLogger : Bool) :
    minimizePreconditioned useHvp opt o (.dense P) initX disp printEvery initLogger =
      minimizeObjective useHvp opt o initX true disp printEvery initLogger := by
  have hs := startObj_same o printEvery initLogger
  rw [minimize_cond, hs.precond, hP]
  change (match npSolve P initX with
    | .error e => (startObj o printEvery initLogger, .error e)
    | .ok x0 =>
      let r := (opt x0).run (fun o x => o.funFreeCondM (.dense P) x () disp)
        (fun o x => o.funFreeGradCondM (.dense P) x ())
        (if useHvp then some fun o x v => o.funFreeHvpCondM (.dense P) x () v else none)
        (startObj o printEvery initLogger)
      match r.2 with
      | .error e => (r.1, .error e)
      | .ok res =>
        match P.mulVec res.x with
        | .error e => (r.1, .error e)
        | .ok optX => (r.1, .ok (optX, res)) : Objective Unit × Py (List ℝ × OptResult)) = _
  dsimp only
  cases npSolve P initX with
  | error e => rfl
  | ok x0 =>
    dsimp only
    rw [run_dense useHvp disp o P hP (opt x0) _ hs]
    have hsame := run_same (good_cond o P hP disp useHvp) (opt x0) _ hs
    simp only [Objective.unconditionX, hsame.precond, hP]
    clear hsame
    generalize Optimizer.run _ _ _ _ _ = r
    rcases r with ⟨p, _ | res⟩
    · rfl
    · simp only
      cases P.mulVec res.x <;> rfl

/-- **C128 fails** for minimization: with a sparse preconditioner it raises `LinAlgError` before the optimizer
is called, for every objective, although with the dense matrix it returns. -/
theorem C128_minimize_counterexample :
    (∀ (useHvp : Bool) (opt : List ℝ → Optimizer) (o : Objective Unit) (P : Mat) (initX : List ℝ) (disp : Bool)
      (printEvery : Option ℕ) (initLogger : Bool), P.isSparse = true →
      (minimizePreconditioned useHvp opt o P initX disp printEvery initLogger).2 = .error .linAlgError) ∧
    ∃ (o : Objective Unit) (P : Mat) (o' : Objective Unit) (res : OptResult), P.isSparse = true ∧ P.Valid ∧
      minimizePreconditioned true stayAtStart o (.dense P.toArr) [1, 2, 3] false none true =
        (o', .ok ([1, 2, 3], res)) := by
  refine ⟨fun useHvp opt o P initX disp printEvery initLogger hs => ?_, ?_⟩
  · unfold minimizePreconditioned
    cases P with
    | dense a => exact absurd hs (by simp [Mat.isSparse])
    | csr m => rfl
    | csc m => rfl
  · set a : Arr := ofMatrix (2 : Matrix (Fin 3) (Fin 3) ℝ) with ha
    have hm : IsMat a 3 3 := ⟨Arr.ofFn2_WF _ _ _, rfl⟩
    obtain ⟨hv, he⟩ := C128_conversion a hm
    have hd : (toMatrix 3 3 a).det ≠ 0 := by
      have : toMatrix 3 3 a = 2 := by
        ext i j
        simp only [toMatrix, ha, ofMatrix, Matrix.of_apply]
        rw [Arr.at2_ofFn2 _ _ _ i.2 j.2, dif_pos ⟨i.2, j.2⟩]
      rw [this]
      have h2 : (2 : Matrix (Fin 3) (Fin 3) ℝ) = (2 : ℝ) • 1 := by
        rw [Algebra.smul_def, mul_one]; rfl
      rw [h2, Matrix.det_smul, Matrix.det_one]
      norm_num
    obtain ⟨o', res, h, -⟩ := C66_stay true { exObj with precond := some a } a 3 rfl hm hd [1, 2, 3] rfl
      (v := (exDict.ftvP [1, 2, 3]).sum)
      (by rw [Objective.funFree_value]; exact exObj_value [1, 2, 3] rfl) none true
    refine ⟨{ exObj with precond := some a }, .csr (MatArg.dense 3 3 a.at2).toCsr, o', res, rfl, hv, ?_⟩
    rw [he, minimizePreconditioned_dense _ _ _ a rfl]
    exact h

end LRVB
