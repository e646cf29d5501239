import Verif.Lemmas.Chol
import Verif.Spec.Matrix
import Mathlib.Analysis.Calculus.Deriv.Mul
import Mathlib.Analysis.Calculus.Deriv.Add
import Mathlib.Order.Interval.Finset.Nat
import Mathlib.Tactic.NormNum

/-!
# C13–C20: index arithmetic, triangular packing, positive definite packing
-/

namespace LRVB

open Finset

/-! ## C13 -/

theorem ravel_eq_rank {idx shape : List ℕ} {k : ℕ} (h : ravel idx shape = .ok k) :
    k = rowMajorRank idx shape := by
  induction idx generalizing shape k with
  | nil =>
    cases shape with
    | nil => cases h; simp [rowMajorRank]
    | cons _ _ => cases h
  | cons i idx ih =>
    cases shape with
    | nil => cases h
    | cons n s =>
      unfold ravel at h
      split_ifs at h with hi
      cases hr : ravel idx s with
      | error e => rw [hr] at h; cases h
      | ok k' =>
        rw [hr] at h; cases h
        rw [ih hr]
        simp only [rowMajorRank, List.length_cons]
        rw [Finset.sum_range_succ']
        simp only [List.getD_cons_succ, List.drop_succ_cons, List.getD_cons_zero, List.drop_zero,
          Nat.zero_add]
        rw [add_comm]

/-- **C13** Enumerating the multi-indices as `itertools.product` does and ranking them gives
`0, 1, 2, ...` without gaps or repeats. -/
theorem C13_enumeration_row_major (shape : List ℕ) :
    (indexProduct shape).map (fun idx => rowMajorRank idx shape) = List.range shape.prod := by
  have h := ravel_indexProduct shape
  rw [mapM_ok_of (g := fun idx => rowMajorRank idx shape)] at h
  · simpa using h
  · intro idx hidx
    obtain ⟨k, hk, _⟩ := ravel_ok (mem_indexProduct.mp hidx)
    rw [hk, ravel_eq_rank hk]

/-- **C13** The enumeration contains exactly the in-range multi-indices, in strictly increasing
lexicographic order. -/
theorem C13_enumeration_lexicographic (shape : List ℕ) :
    (∀ idx, idx ∈ indexProduct shape ↔ List.Forall₂ (· < ·) idx shape) ∧
    (indexProduct shape).Pairwise (List.Lex (· < ·)) := by
  refine ⟨fun idx => mem_indexProduct, ?_⟩
  induction shape with
  | nil => simp [indexProduct]
  | cons n s ih =>
    simp only [indexProduct]
    rw [List.pairwise_flatMap]
    constructor
    · intro i _
      rw [List.pairwise_map]
      exact ih.imp fun h => List.Lex.cons h
    · refine List.pairwise_lt_range.imp ?_
      intro a b hab x hx y hy
      obtain ⟨x', _, rfl⟩ := List.mem_map.mp hx
      obtain ⟨y', _, rfl⟩ := List.mem_map.mp hy
      exact List.Lex.rel hab

/-- **C13** `ravel_multi_index` computes the row-major rank of every in-range multi-index and
raises on every other one; entry `idx` of an array is the entry of the flattened array at that rank. -/
theorem C13_ravel_is_rank (shape idx : List ℕ) :
    (List.Forall₂ (· < ·) idx shape → ravel idx shape = .ok (rowMajorRank idx shape) ∧
      rowMajorRank idx shape < shape.prod ∧
      ∀ data : List ℝ, data.length = shape.prod →
        (⟨shape, data⟩ : Arr).sub idx = .ok (Arr.scalar (data.getD (rowMajorRank idx shape) 0))) ∧
    (¬ List.Forall₂ (· < ·) idx shape → ravel idx shape = .error .valueError) := by
  constructor
  · intro h
    obtain ⟨k, hk, hlt⟩ := ravel_ok h
    have := ravel_eq_rank hk
    subst this
    exact ⟨hk, hlt, fun data hd => sub_eq_ravel data hd hk⟩
  · intro h
    induction idx generalizing shape with
    | nil =>
      cases shape with
      | nil => exact absurd List.Forall₂.nil h
      | cons n s => rfl
    | cons i idx ih =>
      cases shape with
      | nil => rfl
      | cons n s =>
        unfold ravel
        split_ifs with hi
        · rw [ih s (fun hc => h (List.Forall₂.cons hi hc))]; rfl
        · rfl

example : List.Forall₂ (· < ·) [1, 0, 3] [2, 3, 4] := by simp
example : rowMajorRank [1, 0, 3] [2, 3, 4] = 15 := by
  simp [rowMajorRank, Finset.sum_range_succ]

/-! ## C14 -/

/-- **C14** The packed index is symmetric, and over the lower triangle of an `n × n` matrix takes
every value below `n(n+1)/2` exactly once, in row-by-row order. -/
theorem C14_symIndex_bijection (n : ℕ) :
    (∀ i j, symIndex i j = symIndex j i) ∧
    (∀ i j, i < n → j < n → symIndex i j < n * (n + 1) / 2) ∧
    (∀ k, k < n * (n + 1) / 2 → ∃! p : ℕ × ℕ, p.2 ≤ p.1 ∧ p.1 < n ∧ symIndex p.1 p.2 = k) ∧
    (∀ i j i' j', j ≤ i → j' ≤ i' → (i < i' ∨ (i = i' ∧ j < j')) →
      symIndex i j < symIndex i' j') := by
  refine ⟨symIndex_comm, fun i j hi hj => symIndex_lt hi hj, ?_, ?_⟩
  · intro k hk
    have hk' : k < (trilIndices n).length := by rw [trilIndices_length]; exact hk
    have hmem := List.getElem_mem hk'
    generalize hp : (trilIndices n)[k] = p at hmem
    obtain ⟨h1, h2⟩ := mem_trilIndices.mp (show (p.1, p.2) ∈ _ from hmem)
    refine ⟨p, ⟨h1, h2, ?_⟩, ?_⟩
    · have := trilIndices_getElem_symIndex hk'
      rwa [hp] at this
    · rintro ⟨a, b⟩ ⟨h3, h4, h5⟩
      have := trilIndices_getElem? (n := n) h3 h4
      simp only at h5
      rw [h5, List.getElem?_eq_getElem hk', hp] at this
      exact (Option.some.inj this).symm
  · intro i j i' j' hj hj' h
    rw [symIndex_of_le hj, symIndex_of_le hj']
    rcases h with h | ⟨rfl, h⟩
    · have := tri_mono (Nat.succ_le_of_lt h)
      rw [Nat.succ_eq_add_one, tri_succ] at this
      omega
    · omega

example : symIndex 2 1 = 4 ∧ symIndex 1 2 = 4 := by decide

/-! ## C15 -/

/-- **C15** Unvectorizing a vector of triangular length and vectorizing gives the vector back. -/
theorem C15_vectorize_unvectorize (n : ℕ) (v : List ℝ) (h : v.length = n * (n + 1) / 2) :
    (unvectorizeLd v >>= vectorizeLd) = .ok v := by
  rw [unvectorizeLd_ok (n := n) h]
  exact vectorize_ofFn2 (n := n) h _ fun i j hj _ => by simp [hj]

/-- **C15** Vectorizing a square matrix and unvectorizing gives its lower triangle. -/
theorem C15_unvectorize_vectorize (n : ℕ) (m : Arr) (h : IsMat m n n) :
    ∃ l, (vectorizeLd m >>= unvectorizeLd) = .ok l ∧ IsMat l n n ∧
      ∀ i < n, ∀ j < n, l.at2 i j = if j ≤ i then m.at2 i j else 0 := by
  obtain ⟨_, hs⟩ := h
  have hv := vectorizeLd_ok hs
  rw [hv]
  change ∃ l, unvectorizeLd _ = .ok l ∧ _
  have hl := vectorizeLd_length hs hv
  refine ⟨_, unvectorizeLd_ok hl, ⟨Arr.ofFn2_WF _ _ _, rfl⟩, ?_⟩
  intro i hi j hj
  rw [Arr.at2_ofFn2 _ _ _ hi hj]
  split_ifs with hc
  · exact vectorizeLd_getD hs hv hc hi
  · rfl

example : ([1, 2, 3] : List ℝ).length = 2 * (2 + 1) / 2 := by simp
example : IsMat (Arr.ofFn2 2 2 fun i j => (i : ℝ) + 10 * j) 2 2 := ⟨Arr.ofFn2_WF _ _ _, rfl⟩

/-! ## C16 -/

/-- **C16** Unvectorizing succeeds exactly on triangular lengths, with an `n × n` result, and raises
`ValueError` on every other length. -/
theorem C16_unvectorize_accepts_triangular (v : List ℝ) :
    (∀ n, v.length = n * (n + 1) / 2 → ∃ m, unvectorizeLd v = .ok m ∧ IsMat m n n) ∧
    ((¬ ∃ n, v.length = n * (n + 1) / 2) → unvectorizeLd v = .error .valueError) := by
  constructor
  · intro n h
    exact ⟨_, unvectorizeLd_ok (n := n) h, Arr.ofFn2_WF _ _ _, rfl⟩
  · exact unvectorizeLd_err

/-- **C16** Vectorizing raises `ValueError` on everything that is not a square matrix. -/
theorem C16_vectorize_rejects_nonsquare (m : Arr) :
    (∀ n, m.shape = [n, n] → ∃ v, vectorizeLd m = .ok v ∧ v.length = n * (n + 1) / 2) ∧
    ((¬ ∃ n, m.shape = [n, n]) → vectorizeLd m = .error .valueError) := by
  constructor
  · intro n h
    exact ⟨_, vectorizeLd_ok h, vectorizeLd_length h (vectorizeLd_ok h)⟩
  · intro h
    unfold vectorizeLd
    split
    · rename_i r c hs
      rw [if_pos]
      rintro rfl
      exact h ⟨_, hs⟩
    · rfl

example : ¬ ∃ n, ([1, 2] : List ℝ).length = n * (n + 1) / 2 := by
  rintro ⟨n, h⟩
  have h2 := two_tri n
  unfold tri at h2
  rw [← h] at h2
  simp at h2
  have : n ≤ 1 ∨ 2 ≤ n := by omega
  rcases this with h3 | h3
  · interval_cases n <;> omega
  · nlinarith

/-! ## C17 -/

/-- **C17** Symmetric unvectorizing gives a symmetric matrix whose lower triangle is the vector. -/
theorem C17_unvectorize_symmetric (n : ℕ) (v : List ℝ) (h : v.length = n * (n + 1) / 2) :
    ∃ m, unvectorizeSym v = .ok m ∧ IsMat m n n ∧ m.transpose = m ∧ vectorizeLd m = .ok v := by
  refine ⟨_, unvectorizeSym_ok (n := n) h, ⟨Arr.ofFn2_WF _ _ _, rfl⟩, ?_, ?_⟩
  · change Arr.ofFn2 n n _ = _
    apply Arr.ofFn2_congr
    intro i hi j hj
    rw [Arr.at2_ofFn2 _ _ _ hj hi, symIndex_comm]
  · exact vectorize_ofFn2 (n := n) h _ fun i j _ _ => rfl

/-- **C17** On the vectorization of a symmetric matrix it returns that matrix. -/
theorem C17_symmetric_roundtrip (n : ℕ) (m : Arr) (h : IsMat m n n) (hs : m.transpose = m) :
    (vectorizeLd m >>= unvectorizeSym) = .ok m := by
  have hv := vectorizeLd_ok h.2
  have hl := vectorizeLd_length h.2 hv
  rw [hv]
  change unvectorizeSym _ = _
  rw [unvectorizeSym_ok hl]
  congr 1
  symm
  apply Arr.ext2_ofFn2 h.1 h.2
  have hsym : ∀ i < n, ∀ j < n, m.at2 i j = m.at2 j i := by
    intro i hi j hj
    conv_lhs => rw [← hs]
    have : m.transpose = Arr.ofFn2 n n fun i j => m.at2 j i := by simp [Arr.transpose, h.2]
    rw [this, Arr.at2_ofFn2 _ _ _ hi hj]
  intro i hi j hj
  rcases le_total j i with hji | hij
  · rw [vectorizeLd_getD h.2 hv hji hi]
  · rw [symIndex_comm, vectorizeLd_getD h.2 hv hij hj, hsym i hi j hj]

example : (Arr.ofFn2 2 2 fun i j => (i : ℝ) + j).transpose = Arr.ofFn2 2 2 fun i j => (i : ℝ) + j := by
  change Arr.ofFn2 2 2 _ = _
  apply Arr.ofFn2_congr
  intro i hi j hj
  rw [Arr.at2_ofFn2 _ _ _ hj hi, add_comm]

/-! ## C18 -/

/-- **C18** The forward rule is the derivative: for every vector, tangent and matrix entry. -/
theorem C18_forward_rule (n : ℕ) (v g : List ℝ) (hv : v.length = n * (n + 1) / 2)
    (hg : g.length = n * (n + 1) / 2) :
    ∃ (F : ℝ → Arr) (G : Arr), (∀ t, unvectorizeLd (lineVec v g t) = .ok (F t)) ∧
      unvectorizeLdJvp g = .ok G ∧
      ∀ i < n, ∀ j < n, ∀ t, HasDerivAt (fun s => (F s).at2 i j) (G.at2 i j) t := by
  have hl : ∀ t, (lineVec v g t).length = tri n := by
    intro t; simp only [lineVec, List.length_zipWith, hv, hg]; simp [tri]
  refine ⟨_, _, fun t => unvectorizeLd_ok (hl t), unvectorizeLd_ok (n := n) hg, ?_⟩
  intro i hi j hj t
  simp only [Arr.at2_ofFn2 _ _ _ hi hj]
  by_cases hc : j ≤ i
  · simp only [hc, if_true]
    have hk := symIndex_lt hi hj
    generalize symIndex i j = k at hk
    have hkv : k < v.length := by rw [hv]; exact hk
    have hkg : k < g.length := by rw [hg]; exact hk
    have : (fun s => (lineVec v g s).getD k 0) = fun s => v.getD k 0 + s * g.getD k 0 := by
      funext s
      simp [lineVec, List.getD_eq_getElem?_getD, hkv, hkg]
    rw [this]
    simpa using ((hasDerivAt_id t).mul_const (g.getD k 0)).const_add (v.getD k 0)
  · simp only [hc, if_false]
    exact hasDerivAt_const t (0 : ℝ)

theorem dot_eq_sum {x y : List ℝ} {m : ℕ} (hx : x.length = m) (hy : y.length = m) :
    dot x y = ∑ k ∈ range m, x.getD k 0 * y.getD k 0 := by
  unfold dot
  induction x generalizing y m with
  | nil => simp at hx; subst hx; simp
  | cons a t ih =>
    cases y with
    | nil => simp at hy; subst hy; simp at hx
    | cons b u =>
      simp at hx hy
      subst hx
      rw [List.zipWith_cons_cons, List.sum_cons, ih rfl (by omega), sum_range_succ']
      simp [add_comm]

theorem sum_tril (n : ℕ) (f : ℕ → ℕ → ℝ) :
    ((trilIndices n).map fun p => f p.1 p.2).sum =
      ∑ i ∈ range n, ∑ j ∈ range n, if j ≤ i then f i j else 0 := by
  have key : ∀ m ≤ n, ((trilIndices m).map fun p => f p.1 p.2).sum =
      ∑ i ∈ range m, ∑ j ∈ range n, if j ≤ i then f i j else 0 := by
    intro m
    induction m with
    | zero => intro _; rfl
    | succ m ih =>
      intro hm
      rw [trilIndices_succ, List.map_append, List.sum_append, ih (by omega), sum_range_succ]
      congr 1
      rw [List.map_map, ← sum_filter]
      have : ({j ∈ range n | j ≤ m} : Finset ℕ) = range (m + 1) := by
        ext j; simp; omega
      rw [this]
      rfl
  exact key n le_rfl

/-- **C18** The reverse rule is the adjoint of the forward rule. -/
theorem C18_reverse_rule_adjoint (n : ℕ) (C : Arr) (g : List ℝ) (hC : IsMat C n n)
    (hg : g.length = n * (n + 1) / 2) :
    ∃ (r : List ℝ) (G : Arr), unvectorizeLdVjp C = .ok r ∧ unvectorizeLdJvp g = .ok G ∧
      ∑ i ∈ range n, ∑ j ∈ range n, C.at2 i j * G.at2 i j = dot r g := by
  have hv := vectorizeLd_ok hC.2
  refine ⟨(trilIndices n).map fun p => C.at2 p.1 p.2, _, ?_, unvectorizeLd_ok (n := n) hg, ?_⟩
  · unfold unvectorizeLdVjp
    rw [hC.2]
    simp only [ne_eq, not_true_eq_false, if_false]
    exact hv
  · have e : dot ((trilIndices n).map fun p => C.at2 p.1 p.2) g =
        ((trilIndices n).map fun p => C.at2 p.1 p.2 * g.getD (symIndex p.1 p.2) 0).sum := by
      unfold dot
      conv_lhs => rw [← map_getD_symIndex (n := n) hg]
      rw [List.zipWith_map, List.zipWith_self]
    rw [e, sum_tril n (fun i j => C.at2 i j * g.getD (symIndex i j) 0)]
    apply sum_congr rfl
    intro i hi
    apply sum_congr rfl
    intro j hj
    rw [Arr.at2_ofFn2 _ _ _ (by simpa using hi) (by simpa using hj)]
    split_ifs <;> simp

/-! ## C19 -/

theorem freeChol_lower (x : List ℝ) {i k : ℕ} (h : i < k) : freeChol x i k = 0 := by
  have h1 : ¬ k < i := by omega
  have h2 : k ≠ i := by omega
  simp [freeChol, h1, h2]

theorem freeChol_diag_pos (x : List ℝ) (i : ℕ) : 0 < freeChol x i i := by
  simp [freeChol, Real.exp_pos]

theorem asMatrix_sub {n : ℕ} (m : Arr) (d : ℝ) :
    asMatrix n m - d • (1 : Matrix (Fin n) (Fin n) ℝ) =
      toMat n fun i j => m.at2 i j - if i = j then d else 0 := by
  ext i j
  simp [asMatrix, toMat, Matrix.one_apply, Fin.ext_iff]

/-- **C19** Every free vector of triangular length unpacks, without error, to a symmetric matrix `m`
such that `m - diag_lb I` is positive definite, and every diagonal entry exceeds `diag_lb`. -/
theorem C19_unpack_posdef (n : ℕ) (x : List ℝ) (d : ℝ) (h : x.length = n * (n + 1) / 2) :
    ∃ m, unpackPosdef x d = .ok m ∧ IsMat m n n ∧ m.transpose = m ∧
      (asMatrix n m - d • 1).PosDef ∧ ∀ i < n, d < m.at2 i i := by
  have hpd : (asMatrix n (Arr.ofFn2 n n fun i j =>
      (∑ k ∈ range n, freeChol x i k * freeChol x j k) + (if i = j then d else 0)) - d • 1).PosDef := by
    rw [asMatrix_sub]
    have := lower_posDef n (freeChol x) (fun i k => freeChol_lower x) (fun i _ => freeChol_diag_pos x i)
    convert this using 1
    ext i j
    simp [toMat, Arr.at2_ofFn2 _ _ _ i.2 j.2]
  refine ⟨_, unpackPosdef_ok (n := n) h d, ⟨Arr.ofFn2_WF _ _ _, rfl⟩, ?_, hpd, ?_⟩
  · change Arr.ofFn2 n n _ = _
    apply Arr.ofFn2_congr
    intro i hi j hj
    rw [Arr.at2_ofFn2 _ _ _ hj hi]
    congr 1
    · exact sum_congr rfl fun k _ => mul_comm _ _
    · simp [eq_comm]
  · intro i hi
    have := hpd.diag_pos (i := ⟨i, hi⟩)
    simp [asMatrix] at this
    exact this

/-! ## C20 -/

theorem cholesky_ok_iff (n : ℕ) (A : ℕ → ℕ → ℝ) :
    ((∀ i < n, 0 < cholPivot A i) → cholesky (Arr.ofFn2 n n A) = .ok (Arr.ofFn2 n n (cholEntry A))) ∧
    ((¬ ∀ i < n, 0 < cholPivot A i) → cholesky (Arr.ofFn2 n n A) = .error .linAlgError) := by
  have hcong : ∀ i < n, ∀ j, cholEntry (Arr.ofFn2 n n A).at2 i j = cholEntry A i j := by
    intro i
    induction i using Nat.strong_induction_on with
    | _ i ihi =>
      intro hi j
      induction j using Nat.strong_induction_on with
      | _ j ihj =>
        rcases lt_trichotomy j i with h | h | h
        · rw [cholEntry_lt _ h, cholEntry_lt _ h, ihi j h (by omega), Arr.at2_ofFn2 _ _ _ hi (by omega)]
          congr 2
          apply sum_congr rfl
          intro k hk
          rw [ihj k (by simpa using hk), ihi j h (by omega)]
        · subst h
          rw [cholEntry_diag, cholEntry_diag, cholPivot_eq, cholPivot_eq, Arr.at2_ofFn2 _ _ _ hi hi]
          congr 2
          apply sum_congr rfl
          intro k hk
          rw [ihj k (by simpa using hk)]
        · rw [cholEntry_gt _ h, cholEntry_gt _ h]
  have hpiv : ∀ i < n, cholPivot (Arr.ofFn2 n n A).at2 i = cholPivot A i := by
    intro i hi
    rw [cholPivot_eq, cholPivot_eq, Arr.at2_ofFn2 _ _ _ hi hi]
    congr 1
    exact sum_congr rfl fun k _ => by rw [hcong i hi]
  have hiff : (∀ i < n, 0 < cholPivot (Arr.ofFn2 n n A).at2 i) ↔ ∀ i < n, 0 < cholPivot A i :=
    forall₂_congr fun i hi => by rw [hpiv i hi]
  constructor
  · intro h
    unfold cholesky
    simp only [Arr.ofFn2_shape, ne_eq, not_true_eq_false, if_false]
    rw [if_pos (hiff.mpr h)]
    congr 1
    exact Arr.ofFn2_congr fun i hi j _ => hcong i hi j
  · intro h
    unfold cholesky
    simp only [Arr.ofFn2_shape, ne_eq, not_true_eq_false, if_false]
    rw [if_neg (fun hc => h (hiff.mp hc))]

theorem packPosdef_eq {n : ℕ} {m : Arr} (hm : m.shape = [n, n]) (d : ℝ)
    (hp : ∀ i < n, 0 < cholPivot (fun i j => m.at2 i j - if i = j then d else 0) i) :
    packPosdef m d = .ok ((trilIndices n).map fun p =>
      if p.1 = p.2 then Real.log (cholEntry (fun i j => m.at2 i j - if i = j then d else 0) p.1 p.1)
      else cholEntry (fun i j => m.at2 i j - if i = j then d else 0) p.1 p.2) := by
  unfold packPosdef
  rw [hm]
  simp only [ne_eq, not_true_eq_false, if_false]
  rw [(cholesky_ok_iff n _).1 hp]
  change (do
    let g ← logMatrixDiagonal _
    vectorizeLd g) = _
  generalize hA : (fun i j => m.at2 i j - if i = j then d else 0) = A at *
  rw [logMatrixDiagonal_ok (n := n) rfl]
  · rw [py_ok_bind]
    rw [vectorizeLd_ok (n := n) rfl]
    congr 1
    apply List.map_congr_left
    rintro ⟨i, j⟩ hij
    obtain ⟨h1, h2⟩ := mem_trilIndices.mp hij
    have h3 : j < n := by omega
    rw [Arr.at2_ofFn2 _ _ _ h2 h3, Arr.at2_ofFn2 _ _ _ h2 h2, Arr.at2_ofFn2 _ _ _ h2 h3]
  · intro i hi
    rw [Arr.at2_ofFn2 _ _ _ hi hi, cholEntry_diag]
    exact Real.sqrt_pos.mpr (hp i hi)

theorem packPosdef_err {n : ℕ} {m : Arr} (hm : m.shape = [n, n]) (d : ℝ)
    (hp : ¬ ∀ i < n, 0 < cholPivot (fun i j => m.at2 i j - if i = j then d else 0) i) :
    packPosdef m d = .error .linAlgError := by
  unfold packPosdef
  rw [hm]
  simp only [ne_eq, not_true_eq_false, if_false]
  rw [(cholesky_ok_iff n _).2 hp]
  rfl

/-- **C20** Packing the matrix unpacked from a free vector returns the vector. -/
theorem C20_pack_unpack (n : ℕ) (x : List ℝ) (d : ℝ) (h : x.length = n * (n + 1) / 2) :
    (unpackPosdef x d >>= fun m => packPosdef m d) = .ok x := by
  rw [unpackPosdef_ok (n := n) h, py_ok_bind]
  set m := Arr.ofFn2 n n fun i j =>
      (∑ k ∈ range n, freeChol x i k * freeChol x j k) + (if i = j then d else 0) with hm
  have hA : ∀ i j, j ≤ i → i < n → (m.at2 i j - if i = j then d else 0) =
      ∑ k ∈ range n, freeChol x i k * freeChol x j k := by
    intro i j hj hi
    rw [hm, Arr.at2_ofFn2 _ _ _ hi (by omega)]; ring
  obtain ⟨h1, h2⟩ := chol_unique (fun i j => m.at2 i j - if i = j then d else 0) (freeChol x) n
    (fun i k => freeChol_lower x) (fun i _ => freeChol_diag_pos x i) hA
  rw [packPosdef_eq rfl d h2]
  congr 1
  refine Eq.trans ?_ (map_getD_symIndex (n := n) h)
  apply List.map_congr_left
  rintro ⟨i, j⟩ hij
  obtain ⟨h3, h4⟩ := mem_trilIndices.mp hij
  simp only
  rw [h1 i h4, h1 i h4]
  by_cases hc : i = j
  · subst hc; simp [freeChol]
  · have : j < i := by omega
    simp [hc, freeChol, this]

/-- **C20** For every symmetric `m` with `m - diag_lb I` positive definite, packing succeeds and
unpacking the packed vector returns `m`. -/
theorem C20_unpack_pack (n : ℕ) (m : Arr) (d : ℝ) (hm : IsMat m n n)
    (hpd : (asMatrix n m - d • 1).PosDef) :
    ∃ x, packPosdef m d = .ok x ∧ x.length = n * (n + 1) / 2 ∧ unpackPosdef x d = .ok m := by
  rw [asMatrix_sub] at hpd
  have hp := posDef_pivots hpd
  have hx := packPosdef_eq hm.2 d hp
  refine ⟨_, hx, by simp [tri], ?_⟩
  rw [unpackPosdef_ok (n := n) (by simp)]
  congr 1
  symm
  apply Arr.ext2_ofFn2 hm.1 hm.2
  set A := fun i j => m.at2 i j - if i = j then d else 0 with hA
  have hfc : ∀ i < n, ∀ k, freeChol ((trilIndices n).map fun p =>
      if p.1 = p.2 then Real.log (cholEntry A p.1 p.1) else cholEntry A p.1 p.2) i k = cholEntry A i k := by
    intro i hi k
    have hget : ∀ j, j ≤ i → ((trilIndices n).map fun p =>
      if p.1 = p.2 then Real.log (cholEntry A p.1 p.1) else cholEntry A p.1 p.2).getD (symIndex i j) 0 =
        if i = j then Real.log (cholEntry A i i) else cholEntry A i j := by
      intro j hj
      rw [List.getD_eq_getElem?_getD, List.getElem?_map, trilIndices_getElem? hj hi]
      rfl
    unfold freeChol
    rcases lt_trichotomy k i with h | h | h
    · rw [if_pos h, hget k h.le, if_neg (by omega)]
    · subst h
      rw [if_neg (lt_irrefl _), if_pos rfl, hget k le_rfl, if_pos rfl, Real.exp_log]
      rw [cholEntry_diag]; exact Real.sqrt_pos.mpr (hp k hi)
    · rw [if_neg (by omega), if_neg (by omega), cholEntry_gt A h]
  intro i hi j hj
  rw [sum_congr rfl fun k _ => by rw [hfc i hi k, hfc j hj k]]
  have hmul : ∑ k ∈ range n, cholEntry A i k * cholEntry A j k = A i j := by
    rcases le_total j i with hji | hij
    · exact chol_mul A n hp hji hi
    · rw [toMat_symm hpd hi hj, ← chol_mul A n hp hij hj]
      exact sum_congr rfl fun k _ => mul_comm _ _
  rw [hmul, hA]
  ring

/-- **C20**, the rest of the domain: packing a symmetric matrix for which `m - diag_lb I` is not
positive definite raises `LinAlgError`. -/
theorem C20_pack_rejects_non_posdef (n : ℕ) (m : Arr) (d : ℝ) (hm : IsMat m n n)
    (hs : m.transpose = m) (hpd : ¬ (asMatrix n m - d • 1).PosDef) :
    packPosdef m d = .error .linAlgError := by
  apply packPosdef_err hm.2
  intro hp
  apply hpd
  rw [asMatrix_sub]
  apply posDef_of_pivots _ hp
  intro i hi j hj
  have : m.at2 i j = m.at2 j i := by
    conv_lhs => rw [← hs]
    have : m.transpose = Arr.ofFn2 n n fun i j => m.at2 j i := by simp [Arr.transpose, hm.2]
    rw [this, Arr.at2_ofFn2 _ _ _ hi hj]
  simp only [this, eq_comm]

/-- The hypotheses of **C20** are met, e.g. by `3 I` with `diag_lb = 1`. -/
example : IsMat (Arr.ofFn2 2 2 fun i j => if i = j then 3 else 0) 2 2 ∧
    (asMatrix 2 (Arr.ofFn2 2 2 fun i j => if i = j then 3 else 0) - (1 : ℝ) • 1).PosDef := by
  refine ⟨⟨Arr.ofFn2_WF _ _ _, rfl⟩, ?_⟩
  have : (asMatrix 2 (Arr.ofFn2 2 2 fun i j => if i = j then 3 else 0) - (1 : ℝ) • 1) =
      Matrix.diagonal fun _ => 2 := by
    ext i j
    simp only [asMatrix, Matrix.sub_apply, Matrix.of_apply, Arr.at2_ofFn2 _ _ _ i.2 j.2]
    by_cases h : i = j
    · subst h; simp; norm_num
    · have : (i : ℕ) ≠ j := fun hc => h (Fin.ext hc)
      simp [h, this]
  rw [this]
  exact Matrix.PosDef.diagonal fun _ => by norm_num

end LRVB
