import Verif.Lemmas.Round9
import Verif.Lemmas.Ld
import Verif.Props.RoundLogistic
import Mathlib.Tactic.IntervalCases

/-!
# C131: the free values of a positive definite matrix in floating point
-/

namespace LRVB

open Classical Flt

noncomputable section

theorem FloatOps.mul_comm (o : FloatOps) (a b : Flt) : o.mul a b = o.mul b a := by
  have : Flt.mul a b = Flt.mul b a := by
    cases a <;> cases b <;> simp [Flt.mul, _root_.mul_comm]
  show o.round (Flt.mul a b) = o.round (Flt.mul b a)
  rw [this]

theorem FloatOps.unpackPosdef_symm (o : FloatOps) (n : ℕ) (lb : Flt) (v : List ℝ) (i j : ℕ) :
    o.unpackPosdef n lb v i j = o.unpackPosdef n lb v j i := by
  unfold FloatOps.unpackPosdef FloatOps.matmulTranspose FloatOps.makeDiagonal
  congr 1
  · congr 1
    exact List.map_congr_left fun k _ => o.mul_comm _ _
  · by_cases h : i = j
    · rw [h]
    · rw [if_neg h, if_neg (Ne.symm h)]

/-- **C131, symmetry**: in every floating point arithmetic, for every size and free value, the stored matrix is
symmetric to the last bit; `set_free` raises `ValueError` only when an entry is NaN. -/
theorem C131_symmetric (o : FloatOps) (n : ℕ) (lb : Flt) (v : List ℝ) :
    (∀ A, o.posdefSetFree n lb v = .ok A → ∀ i j, A i j = A j i) ∧
      (o.posdefSetFree n lb v = .error .valueError ↔ ∃ i < n, ∃ j < n, o.unpackPosdef n lb v i j = nan) := by
  have self : ∀ a : Flt, a.eq a ↔ a ≠ nan := by
    intro a
    cases a <;> simp [Flt.eq]
  unfold FloatOps.posdefSetFree
  constructor
  · intro A hA
    split_ifs at hA with h
    cases hA
    exact o.unpackPosdef_symm n lb v
  · simp only [o.unpackPosdef_symm n lb v _ _, self]
    constructor
    · intro h
      split_ifs at h with h'
      push Not at h'
      obtain ⟨i, hi, j, hj, hij⟩ := h'
      exact ⟨i, hi, j, hj, hij⟩
    · rintro ⟨i, hi, j, hj, hij⟩
      rw [if_neg]
      intro h
      exact h i hi j hj hij

theorem FloatOps.sum_nan (o : FloatOps) {l : List Flt} (h : nan ∈ l) : o.sum l = nan := by
  unfold FloatOps.sum
  rw [if_neg (by
    intro hc
    obtain ⟨r, hr⟩ := hc nan h
    cases hr)]
  have stay : ∀ l : List Flt, l.foldl Flt.add nan = nan := by
    intro l
    induction l with
    | nil => rfl
    | cons c l ih =>
      rw [List.foldl_cons, show Flt.add nan c = nan by cases c <;> rfl]
      exact ih
  have : ∀ (l : List Flt) (b : Flt), nan ∈ l → l.foldl Flt.add b = nan := by
    intro l
    induction l with
    | nil => intro b hb; cases hb
    | cons c l ih =>
      intro b hb
      rw [List.foldl_cons]
      rcases List.mem_cons.1 hb with rfl | hb
      · rw [show Flt.add b nan = nan by cases b <;> rfl]
        exact stay l
      · exact ih _ hb
  exact this l _ h

/-- Above the diagonal the factor is zero. -/
theorem FloatOps.expMatrixDiagonal_upper {o : FloatOps} {over under : ℝ} (c : FloatContract o over under)
    (v : List ℝ) {i j : ℕ} (h : i < j) : o.expMatrixDiagonal (FloatOps.ldMatrix v) i j = fin 0 := by
  have k1 : o.add (fin 0) (fin 0) = fin 0 := by
    show o.rnd (0 + 0) = fin 0
    rw [add_zero]
    exact c.rnd_rep c.zero
  have k2 : o.sub (fin 0) (fin 0) = fin 0 := by
    show o.rnd (0 + -0) = fin 0
    rw [neg_zero, add_zero]
    exact c.rnd_rep c.zero
  unfold FloatOps.expMatrixDiagonal FloatOps.makeDiagonal FloatOps.ldMatrix
  rw [if_neg h.ne, if_neg h.ne, if_neg (by omega), k1, k2]

/-- The diagonal of the factor. -/
theorem FloatOps.expMatrixDiagonal_diag (o : FloatOps) (v : List ℝ) (i : ℕ) :
    o.expMatrixDiagonal (FloatOps.ldMatrix v) i i =
      o.sub (o.add (o.exp (fin (v.getD (i * (i + 1) / 2 + i) 0))) (fin (v.getD (i * (i + 1) / 2 + i) 0)))
        (fin (v.getD (i * (i + 1) / 2 + i) 0)) := by
  unfold FloatOps.expMatrixDiagonal FloatOps.makeDiagonal FloatOps.ldMatrix symIndex
  simp only [if_pos, le_refl, _root_.add_comm i]

/-- Below the diagonal the factor is the free value. -/
theorem FloatOps.expMatrixDiagonal_lower {o : FloatOps} {over under : ℝ} (c : FloatContract o over under)
    (v : List ℝ) {i j : ℕ} (h : j < i) (hr : o.Rep (v.getD (i * (i + 1) / 2 + j) 0)) :
    o.expMatrixDiagonal (FloatOps.ldMatrix v) i j = fin (v.getD (i * (i + 1) / 2 + j) 0) := by
  unfold FloatOps.expMatrixDiagonal FloatOps.makeDiagonal FloatOps.ldMatrix symIndex
  rw [if_neg h.ne', if_neg h.ne', if_pos h.le, if_pos h.le, _root_.add_comm j]
  have k1 : o.add (fin 0) (fin (v.getD (i * (i + 1) / 2 + j) 0)) = fin (v.getD (i * (i + 1) / 2 + j) 0) := by
    show o.rnd (0 + _) = _
    rw [zero_add]
    exact c.rnd_rep hr
  have k2 : o.sub (fin (v.getD (i * (i + 1) / 2 + j) 0)) (fin 0) = fin (v.getD (i * (i + 1) / 2 + j) 0) := by
    show o.rnd (_ + -0) = _
    rw [neg_zero, add_zero]
    exact c.rnd_rep hr
  rw [k1, k2]

/-- **C131** is false for large free values: when the exponential of any diagonal entry but the first overflows,
`set_free` raises `ValueError` (with the message that the matrix is not symmetric). -/
theorem C131_overflow_counterexample {o : FloatOps} {over under : ℝ} (c : FloatContract o over under) (n : ℕ)
    (lb : Flt) (v : List ℝ) (i : ℕ) (hi : 0 < i) (hin : i < n)
    (hov : over ≤ Real.exp (v.getD (i * (i + 1) / 2 + i) 0)) :
    o.posdefSetFree n lb v = .error .valueError := by
  rw [(C131_symmetric o n lb v).2]
  refine ⟨i, hin, 0, by omega, ?_⟩
  have h1 : o.expMatrixDiagonal (FloatOps.ldMatrix v) i i = pinf := by
    rw [o.expMatrixDiagonal_diag]
    rw [show o.exp (fin (v.getD (i * (i + 1) / 2 + i) 0)) = pinf from c.exp_over hov]
    rfl
  have h2 : nan ∈ (List.range n).map fun k => o.mul (o.expMatrixDiagonal (FloatOps.ldMatrix v) i k)
      (o.expMatrixDiagonal (FloatOps.ldMatrix v) 0 k) := by
    refine List.mem_map.2 ⟨i, List.mem_range.2 hin, ?_⟩
    rw [h1, FloatOps.expMatrixDiagonal_upper c v hi]
    show o.round (infMul 0) = nan
    simp [infMul, FloatOps.round]
  unfold FloatOps.unpackPosdef FloatOps.matmulTranspose
  rw [o.sum_nan h2]
  cases h : FloatOps.makeDiagonal (fun _ => lb) i 0 <;> rfl

/-- The hypotheses of `C131_overflow_counterexample` are met: a `2 × 2` matrix with the free value `[0, 0, 710]`. -/
example : Binary64.ideal.posdefSetFree 2 (fin 0) [0, 0, 710] = .error .valueError := by
  refine C131_overflow_counterexample Binary64.contract 2 (fin 0) [0, 0, 710] 1 (by norm_num) (by norm_num) ?_
  show (2 : ℝ) ^ 1024 ≤ Real.exp 710
  rw [← Real.log_le_iff_le_exp (by positivity), Real.log_pow]
  have := Real.log_two_lt_d9
  push_cast
  linarith

namespace Binary64

theorem sum_range_single (n i : ℕ) (hi : i < n) (p : ℝ) :
    ((List.range n).map fun k => if k = i then p else 0).sum = p := by
  have : ((List.range n).map fun k => if k = i then p else 0).sum = ∑ k ∈ Finset.range n, if k = i then p else 0 := rfl
  rw [this, Finset.sum_ite_eq', if_pos (Finset.mem_range.2 hi)]

/-- `np.sum` of numbers of which all but one are zero. -/
theorem sum_single {expR logR : ℝ → Flt} {sumR : List ℝ → Flt} (hs : AccurateSum (Binary64.ops expR logR sumR))
    {n i : ℕ} (hn : n ≤ 2 ^ 40) (hi : i < n) {f : ℕ → Flt} {p : ℝ} (hp : Rep p) (hb : |p| ≤ 2 ^ (1000 : ℤ))
    (hf : f i = fin p) (h0 : ∀ k < n, k ≠ i → f k = fin 0) :
    ∃ a, (Binary64.ops expR logR sumR).sum ((List.range n).map f) = fin a ∧ Rep a ∧
      |a - p| ≤ 2 * ulp * n * |p| := by
  have e1 : (List.range n).map f = (List.range n).map fun k => fin (if k = i then p else 0) := by
    refine List.map_congr_left fun k hk => ?_
    split_ifs with h
    · rw [h, hf]
    · exact h0 k (List.mem_range.1 hk) h
  have e2 : (Binary64.ops expR logR sumR).sum ((List.range n).map f) =
      sumR ((List.range n).map fun k => if k = i then p else 0) := by
    rw [e1]
    unfold FloatOps.sum
    rw [if_pos (by
      intro a ha
      obtain ⟨i, hi, rfl⟩ := List.mem_map.1 ha
      exact ⟨_, rfl⟩), List.map_map]
    rfl
  have e3 : (((List.range n).map fun k => if k = i then p else 0).map (|·|)).sum = |p| := by
    rw [List.map_map, ← sum_range_single n i hi |p|]
    congr 1
    refine List.map_congr_left fun k _ => ?_
    show |if k = i then p else 0| = _
    split_ifs <;> simp
  obtain ⟨a, ha, hra, herr⟩ := hs ((List.range n).map fun k => if k = i then p else 0) (by
      intro a ha
      obtain ⟨k, -, rfl⟩ := List.mem_map.1 ha
      show Rep (if k = i then p else 0)
      split_ifs
      · exact hp
      · exact ⟨0, 0, by norm_num, by norm_num, by norm_num, by norm_num⟩)
    (by rw [List.length_map, List.length_range]; exact hn.trans (by norm_num)) (by rw [e3]; exact hb)
  refine ⟨a, e2.trans ha, hra, ?_⟩
  rw [e3, sum_range_single n i hi, List.length_map, List.length_range] at herr
  rwa [show (2 : ℝ) ^ (-51 : ℤ) = 2 * ulp by rw [ulp_eq]; norm_num] at herr

/-- `np.sum` of zeros. -/
theorem sum_zeros {expR logR : ℝ → Flt} {sumR : List ℝ → Flt} (hs : AccurateSum (Binary64.ops expR logR sumR))
    {m : ℕ} (hm : m ≤ 2 ^ 40) {f : ℕ → Flt} (h0 : ∀ k < m, f k = fin 0) :
    (Binary64.ops expR logR sumR).sum ((List.range m).map f) = fin 0 := by
  have e1 : (List.range m).map f = (List.range m).map fun _ => fin 0 :=
    List.map_congr_left fun k hk => h0 k (List.mem_range.1 hk)
  have e2 : (Binary64.ops expR logR sumR).sum ((List.range m).map f) = sumR ((List.range m).map fun _ => 0) := by
    rw [e1]
    unfold FloatOps.sum
    rw [if_pos (by
      intro a ha
      obtain ⟨i, hi, rfl⟩ := List.mem_map.1 ha
      exact ⟨_, rfl⟩), List.map_map]
    rfl
  have e3 : (((List.range m).map fun _ => (0 : ℝ)).map (|·|)).sum = 0 := by
    simp
  obtain ⟨a, ha, hra, herr⟩ := hs ((List.range m).map fun _ => 0) (by
      intro a ha
      obtain ⟨k, -, rfl⟩ := List.mem_map.1 ha
      exact ⟨0, 0, by norm_num, by norm_num, by norm_num, by norm_num⟩)
    (by rw [List.length_map, List.length_range]; exact hm.trans (by norm_num))
    (by rw [e3]; exact (two_zpow_pos _).le)
  rw [e3, mul_zero, show ((List.range m).map fun _ => (0 : ℝ)).sum = 0 by simp, sub_zero] at herr
  have : a = 0 := abs_eq_zero.1 (le_antisymm herr (abs_nonneg _))
  rw [this] at ha
  rw [e2]
  exact ha

end Binary64

/-- The first column of `np.linalg.cholesky`. -/
theorem FloatOps.cholesky_first (o : FloatOps) (a : ℕ → ℕ → Flt) (m : ℕ) (l : ℕ → ℕ → Flt)
    (h : o.choleskyColumns a (m + 1) = .ok l) :
    fin 0 < o.sub (a 0 0) (o.sum []) ∧ l 0 0 = o.sqrt (o.sub (a 0 0) (o.sum [])) := by
  induction m generalizing l with
  | zero =>
    simp only [FloatOps.choleskyColumns, List.range_zero, List.map_nil, Bind.bind, Except.bind] at h
    split_ifs at h with h1
    cases h
    simpa using h1
  | succ m ih =>
    unfold FloatOps.choleskyColumns at h
    cases h' : o.choleskyColumns a (m + 1) with
    | error e => rw [h'] at h; cases h
    | ok l' =>
      obtain ⟨h1, h2⟩ := ih l' h'
      rw [h'] at h
      simp only [Bind.bind, Except.bind] at h
      split_ifs at h with h3
      cases h
      refine ⟨h1, ?_⟩
      dsimp only
      rw [if_neg (by omega)]
      exact h2

namespace Binary64

/-- The error of an entry of the factor. -/
theorem factor_app {expR logR : ℝ → Flt} {sumR : List ℝ → Flt}
    (c : FloatContract (Binary64.ops expR logR sumR) (2 ^ 1024) (2 ^ (-1075 : ℤ))) {v : List ℝ}
    (hv : ∀ a ∈ v, Rep a) (hb : ∀ a ∈ v, -2 ^ 80 ≤ a ∧ a ≤ 50) (i k : ℕ) :
    ∃ l, (Binary64.ops expR logR sumR).expMatrixDiagonal (FloatOps.ldMatrix v) i k = fin l ∧ Rep l ∧
      App 5 l (posdefFactor v i k) (posdefFactorSize v i k) ∧ posdefFactorSize v i k ≤ 2 ^ 85 := by
  have hrep : ∀ m, Rep (v.getD m 0) := by
    intro m
    rw [List.getD_eq_getElem?_getD]
    rcases lt_or_ge m v.length with h | h
    · rw [List.getElem?_eq_getElem h]
      exact hv _ (List.getElem_mem h)
    · rw [List.getElem?_eq_none h]
      exact c.zero
  have hbd : ∀ m, -2 ^ 80 ≤ v.getD m 0 ∧ v.getD m 0 ≤ 50 := by
    intro m
    rw [List.getD_eq_getElem?_getD]
    rcases lt_or_ge m v.length with h | h
    · rw [List.getElem?_eq_getElem h]
      exact hb _ (List.getElem_mem h)
    · rw [List.getElem?_eq_none h]
      norm_num
  have habs : ∀ m, |v.getD m 0| ≤ 2 ^ 80 := fun m =>
    abs_le.2 ⟨(hbd m).1, (hbd m).2.trans (by norm_num)⟩
  unfold posdefFactorSize posdefFactor
  rcases lt_trichotomy i k with h | h | h
  · refine ⟨0, FloatOps.expMatrixDiagonal_upper c v h, c.zero, ?_, ?_⟩
    · rw [if_neg h.ne, if_neg h.ne, if_neg (by omega)]
      exact (App.exact (by simp) (by simp)).mono le_rfl (by norm_num) le_rfl
    · rw [if_neg h.ne, if_neg h.ne, if_neg (by omega)]
      norm_num
  · subst h
    obtain ⟨l, hl, hrl, happ⟩ := expDiag_app c (hrep (i * (i + 1) / 2 + i))
      (by linarith [(hbd (i * (i + 1) / 2 + i)).1, show (2 : ℝ) ^ 90 ≤ 2 ^ 100 by norm_num])
      (by linarith [(hbd (i * (i + 1) / 2 + i)).2])
    refine ⟨l, by rw [FloatOps.expMatrixDiagonal_diag]; exact hl, hrl, ?_, ?_⟩
    · rw [if_pos rfl, if_pos rfl, abs_of_pos (Real.exp_pos _)]
      exact happ
    · rw [if_pos rfl, if_pos rfl, abs_of_pos (Real.exp_pos _)]
      have h1 : Real.exp (v.getD (i * (i + 1) / 2 + i) 0) ≤ 2 ^ 80 := by
        rw [← Real.le_log_iff_exp_le (by positivity), Real.log_pow]
        have := Real.log_two_gt_d9
        have := (hbd (i * (i + 1) / 2 + i)).2
        push_cast
        linarith
      have h2 := habs (i * (i + 1) / 2 + i)
      norm_num at h1 h2 ⊢
      linarith
  · refine ⟨_, FloatOps.expMatrixDiagonal_lower c v h (hrep _), hrep _, ?_, ?_⟩
    · rw [if_neg h.ne', if_neg h.ne', if_pos h]
      exact (App.exact (by linarith) (by linarith [abs_nonneg (v.getD (i * (i + 1) / 2 + k) 0)])).mono le_rfl
        (by norm_num) le_rfl
    · rw [if_neg h.ne', if_neg h.ne', if_pos h]
      have h2 := habs (i * (i + 1) / 2 + k)
      norm_num at h2 ⊢
      linarith

end Binary64

/-- **C131, accuracy of `set_free`**: in double precision, for every size, every lower bound and every free value
in a wide range, `set_free` does not raise, and every entry of the stored matrix has an error of a few units in
the last place of the magnitude of the numbers that are added. -/
theorem C131_set_free_accuracy {expR logR : ℝ → Flt} {sumR : List ℝ → Flt}
    (c : FloatContract (Binary64.ops expR logR sumR) (2 ^ 1024) (2 ^ (-1075 : ℤ)))
    (hs : AccurateSum (Binary64.ops expR logR sumR)) (n : ℕ) (hn : n ≤ 2 ^ 20) (lb : ℝ) (hlb : Binary64.Rep lb)
    (hlb0 : 0 ≤ lb) (hlb1 : lb ≤ 2 ^ 190) (v : List ℝ) (hv : ∀ a ∈ v, Binary64.Rep a)
    (hb : ∀ a ∈ v, -2 ^ 80 ≤ a ∧ a ≤ 50) :
    ∃ A : ℕ → ℕ → ℝ, (∃ M, (Binary64.ops expR logR sumR).posdefSetFree n (fin lb) v = .ok M ∧
        ∀ i j, M i j = fin (A i j)) ∧
      ∀ i j, |A i j - posdefExact n lb v i j| ≤ 2 ^ (-52 : ℤ) * (4 * n + 15) * posdefSize n lb v i j := by
  set o := Binary64.ops expR logR sumR with ho
  have key : ∀ i j, ∃ a, o.unpackPosdef n (fin lb) v i j = fin a ∧
      |a - posdefExact n lb v i j| ≤ 2 ^ (-52 : ℤ) * (4 * n + 15) * posdefSize n lb v i j := by
    intro i j
    choose L hL using Binary64.factor_app c hv hb
    have hprod : ∀ k, ∃ t, o.mul (fin (L i k)) (fin (L j k)) = fin t ∧ Binary64.Rep t ∧
        Binary64.App 13 t (posdefFactor v i k * posdefFactor v j k)
          (posdefFactorSize v i k * posdefFactorSize v j k) := by
      intro k
      have h1 := (hL i k).2.2.1.mul (hL j k).2.2.1 (by norm_num) (by norm_num) (by norm_num) (by norm_num)
      obtain ⟨t, ht, hrt, happ⟩ := h1.rnd (by norm_num) (by norm_num) (by
        refine (mul_le_mul (hL i k).2.2.2 (hL j k).2.2.2 (by linarith [(hL j k).2.2.1.one]) (by positivity)).trans ?_
        norm_num)
      exact ⟨t, ht, hrt, happ.mono (by norm_num) (by norm_num) le_rfl⟩
    choose t ht using hprod
    have hMsum : ((List.range n).map fun k => posdefFactorSize v i k * posdefFactorSize v j k).sum ≤ 2 ^ 195 := by
      have h1 := Binary64.sum_map_le_card (List.range n) (fun k => posdefFactorSize v i k * posdefFactorSize v j k)
        (2 ^ 170) (fun k _ => (mul_le_mul (hL i k).2.2.2 (hL j k).2.2.2 (by linarith [(hL j k).2.2.1.one])
          (by positivity)).trans (by norm_num))
      rw [List.length_range] at h1
      have h2 : (n : ℝ) ≤ 2 ^ 20 := by exact_mod_cast hn
      refine h1.trans ?_
      have : (n : ℝ) * 2 ^ 170 ≤ 2 ^ 20 * 2 ^ 170 := by gcongr
      refine this.trans (by norm_num)
    have hM0 : 0 ≤ ((List.range n).map fun k => posdefFactorSize v i k * posdefFactorSize v j k).sum :=
      List.sum_nonneg (by
        intro x hx
        obtain ⟨k, -, rfl⟩ := List.mem_map.1 hx
        have := (ht k).2.2.one
        linarith)
    obtain ⟨s, hs1, hrs, happ⟩ := Binary64.sum_app hs (List.range n) t _ _ (k := 13) (by norm_num) (by norm_num)
      (fun k _ => (ht k).2) (by rw [List.length_range]; exact hn.trans (by norm_num)) (hMsum.trans (by norm_num))
    rw [List.length_range] at happ
    have hw : Binary64.App 0 (if i = j then lb else 0) (if i = j then lb else 0) (lb + 1) := by
      refine Binary64.App.exact ?_ (by linarith)
      split_ifs
      · rw [abs_of_nonneg hlb0]; linarith
      · rw [abs_zero]; linarith
    have hn' : (n : ℝ) ≤ 2 ^ 20 := by exact_mod_cast hn
    have hn0 : (0 : ℝ) ≤ n := by positivity
    obtain ⟨a, ha, -, happ2⟩ := (Binary64.App.add (m := 13 + 4 * n) happ hw le_rfl (by linarith)).rnd (by linarith)
      (by linarith [show (13 : ℝ) + 4 * 2 ^ 20 ≤ 2 ^ 50 by norm_num]) (by norm_num at hMsum hlb1 ⊢; linarith)
    refine ⟨a, ?_, ?_⟩
    · unfold FloatOps.unpackPosdef FloatOps.matmulTranspose
      have e1 : ((List.range n).map fun k => o.mul (o.expMatrixDiagonal (FloatOps.ldMatrix v) i k)
          (o.expMatrixDiagonal (FloatOps.ldMatrix v) j k)) = (List.range n).map fun k => fin (t k) := by
        refine List.map_congr_left fun k _ => ?_
        rw [(hL i k).1, (hL j k).1]
        exact (ht k).1
      rw [e1, hs1]
      have e2 : FloatOps.makeDiagonal (fun _ => fin lb) i j = fin (if i = j then lb else 0) := by
        unfold FloatOps.makeDiagonal
        split_ifs <;> rfl
      rw [e2]
      exact ha
    · refine happ2.err.trans (le_of_eq ?_)
      unfold posdefSize Binary64.ulp
      ring
  choose A hA using key
  refine ⟨A, ⟨o.unpackPosdef n (fin lb) v, ?_, fun i j => (hA i j).1⟩, fun i j => (hA i j).2⟩
  unfold FloatOps.posdefSetFree
  rw [if_pos]
  intro i _ j _
  rw [o.unpackPosdef_symm n (fin lb) v j i, (hA i j).1]
  rfl

namespace Binary64

/-- The first entry of the stored matrix. -/
theorem unpack_first {expR logR : ℝ → Flt} {sumR : List ℝ → Flt}
    (c : FloatContract (Binary64.ops expR logR sumR) (2 ^ 1024) (2 ^ (-1075 : ℤ)))
    (hs : AccurateSum (Binary64.ops expR logR sumR)) {n : ℕ} (hn0 : 0 < n) (hn : n ≤ 2 ^ 40) (lb : Flt) (v : List ℝ)
    {l p : ℝ} (hl : (Binary64.ops expR logR sumR).sub ((Binary64.ops expR logR sumR).add
        ((Binary64.ops expR logR sumR).exp (fin (v.getD 0 0))) (fin (v.getD 0 0))) (fin (v.getD 0 0)) = fin l)
    (hp : rnd (l * l) = fin p) (hb : |p| ≤ 2 ^ (1000 : ℤ)) :
    ∃ a, (Binary64.ops expR logR sumR).unpackPosdef n lb v 0 0 = (Binary64.ops expR logR sumR).add (fin a) lb ∧
      Rep a ∧ |a - p| ≤ 2 * ulp * n * |p| := by
  have h0 : (Binary64.ops expR logR sumR).expMatrixDiagonal (FloatOps.ldMatrix v) 0 0 = fin l := by
    rw [FloatOps.expMatrixDiagonal_diag]
    exact hl
  obtain ⟨a, ha, hra, herr⟩ := sum_single hs (i := 0) hn hn0
    (f := fun k => (Binary64.ops expR logR sumR).mul
      ((Binary64.ops expR logR sumR).expMatrixDiagonal (FloatOps.ldMatrix v) 0 k)
      ((Binary64.ops expR logR sumR).expMatrixDiagonal (FloatOps.ldMatrix v) 0 k)) (rep_rnd hp) hb
    (by rw [h0]; exact hp)
    (by
      intro k _ hk
      rw [FloatOps.expMatrixDiagonal_upper c v (Nat.pos_of_ne_zero hk)]
      show rnd (0 * 0) = fin 0
      rw [mul_zero]
      exact c.rnd_rep c.zero)
  refine ⟨a, ?_, hra, herr⟩
  unfold FloatOps.unpackPosdef FloatOps.matmulTranspose
  rw [ha]
  rfl

/-- `get_free` needs a positive first entry. -/
theorem _root_.LRVB.FloatOps.round_trip_first (o : FloatOps) (hnil : o.sum [] = fin 0) {n : ℕ} (hn0 : 0 < n) (lb : Flt)
    (v : List ℝ) (w : List Flt) (h : o.posdefRoundTrip n lb v = .ok w) :
    fin 0 < o.sub (o.sub (o.unpackPosdef n lb v 0 0) lb) (fin 0) ∧
      w.head? = some (o.sub (o.add (o.log (o.sqrt (o.sub (o.sub (o.unpackPosdef n lb v 0 0) lb) (fin 0))))
        (o.sqrt (o.sub (o.sub (o.unpackPosdef n lb v 0 0) lb) (fin 0))))
        (o.sqrt (o.sub (o.sub (o.unpackPosdef n lb v 0 0) lb) (fin 0)))) := by
  obtain ⟨n, rfl⟩ := Nat.exists_eq_succ_of_ne_zero hn0.ne'
  unfold FloatOps.posdefRoundTrip FloatOps.posdefSetFree at h
  split_ifs at h with hsym
  · simp only [Bind.bind, Except.bind, FloatOps.packPosdef] at h
    cases hc : o.choleskyColumns (fun i j => o.sub (o.unpackPosdef (n + 1) lb v i j)
        (FloatOps.makeDiagonal (fun _ => lb) i j)) (n + 1) with
    | error e =>
      rw [hc] at h
      cases h
    | ok l =>
      rw [hc] at h
      obtain ⟨h1, h2⟩ := o.cholesky_first _ n l hc
      rw [hnil] at h1 h2
      have e : FloatOps.makeDiagonal (fun _ => lb) 0 0 = lb := if_pos rfl
      rw [e] at h1 h2
      refine ⟨h1, ?_⟩
      cases h
      have e2 : (trilIndices (n + 1)).head? = some (0, 0) := by
        unfold trilIndices
        rw [List.range_succ_eq_map, List.flatMap_cons]
        rfl
      rw [List.head?_map, e2]
      show some (o.logMatrixDiagonal l 0 0) = _
      unfold FloatOps.logMatrixDiagonal FloatOps.makeDiagonal
      rw [if_pos rfl, if_pos rfl]
      dsimp only
      rw [h2]
  · cases h

theorem sum_nil {expR logR : ℝ → Flt} {sumR : List ℝ → Flt} (hs : AccurateSum (Binary64.ops expR logR sumR)) :
    (Binary64.ops expR logR sumR).sum [] = fin 0 :=
  sum_zeros hs (m := 0) (f := fun _ => fin 0) (by norm_num) (by simp)

theorem sub_zero_rep {expR logR : ℝ → Flt} {sumR : List ℝ → Flt}
    (c : FloatContract (Binary64.ops expR logR sumR) (2 ^ 1024) (2 ^ (-1075 : ℤ))) {a : ℝ} (ha : Rep a) :
    (Binary64.ops expR logR sumR).sub (fin a) (fin 0) = fin a := by
  show rnd (a + -0) = fin a
  rw [neg_zero, add_zero]
  exact c.rnd_rep ha

theorem add_zero_rep {expR logR : ℝ → Flt} {sumR : List ℝ → Flt}
    (c : FloatContract (Binary64.ops expR logR sumR) (2 ^ 1024) (2 ^ (-1075 : ℤ))) {a : ℝ} (ha : Rep a) :
    (Binary64.ops expR logR sumR).add (fin a) (fin 0) = fin a := by
  show rnd (a + 0) = fin a
  rw [add_zero]
  exact c.rnd_rep ha

end Binary64

/-- **C131** is false for small free values: for every size and every free value whose first entry is at most
`-35`, the first pivot of the stored matrix is exactly zero, because `exp(d)` is lost in `exp(d) + d - d`; reading
the free value back raises. -/
theorem C131_small_counterexample {expR logR : ℝ → Flt} {sumR : List ℝ → Flt}
    (c : FloatContract (Binary64.ops expR logR sumR) (2 ^ 1024) (2 ^ (-1075 : ℤ)))
    (hs : AccurateSum (Binary64.ops expR logR sumR)) (n : ℕ) (hn0 : 0 < n) (hn : n ≤ 2 ^ 40) (v : List ℝ)
    (hr : Binary64.Rep (v.getD 0 0)) (hd : v.getD 0 0 ≤ -35) (w : List Flt) :
    (Binary64.ops expR logR sumR).unpackPosdef n (fin 0) v 0 0 = fin 0 ∧
      (Binary64.ops expR logR sumR).posdefRoundTrip n (fin 0) v ≠ .ok w := by
  have hz : Binary64.rnd (0 * 0) = fin 0 := by rw [mul_zero]; exact c.rnd_rep c.zero
  obtain ⟨a, ha, hra, herr⟩ := Binary64.unpack_first c hs hn0 hn (fin 0) v (Binary64.expDiag_zero c hr hd) hz
    (by rw [abs_zero]; exact (Binary64.two_zpow_pos _).le)
  rw [abs_zero, mul_zero, sub_zero] at herr
  have ha0 : a = 0 := abs_eq_zero.1 (le_antisymm herr (abs_nonneg _))
  subst ha0
  rw [Binary64.add_zero_rep c c.zero] at ha
  refine ⟨ha, fun h => ?_⟩
  have h1 := (FloatOps.round_trip_first _ (Binary64.sum_nil hs) hn0 (fin 0) v w h).1
  rw [ha, Binary64.sub_zero_rep c c.zero, Binary64.sub_zero_rep c c.zero] at h1
  exact lt_irrefl (0 : ℝ) h1

/-- **C131** is false for a lower bound on the diagonal: when the bound is at least one and the first entry of the
free value is at most `-20`, the square of `exp(d)` is lost in the sum with the bound. -/
theorem C131_lower_bound_counterexample {expR logR : ℝ → Flt} {sumR : List ℝ → Flt}
    (c : FloatContract (Binary64.ops expR logR sumR) (2 ^ 1024) (2 ^ (-1075 : ℤ)))
    (hs : AccurateSum (Binary64.ops expR logR sumR)) (n : ℕ) (hn0 : 0 < n) (hn : n ≤ 2 ^ 40) (lb : ℝ)
    (hlb : Binary64.Rep lb) (hlb1 : 1 ≤ lb) (v : List ℝ)
    (hr : Binary64.Rep (v.getD 0 0)) (hd : v.getD 0 0 ≤ -20) (w : List Flt) :
    (Binary64.ops expR logR sumR).unpackPosdef n (fin lb) v 0 0 = fin lb ∧
      (Binary64.ops expR logR sumR).posdefRoundTrip n (fin lb) v ≠ .ok w := by
  have hu := Binary64.ulp_pos
  obtain ⟨l, hl, hlb2⟩ : ∃ l, (Binary64.ops expR logR sumR).sub ((Binary64.ops expR logR sumR).add
        ((Binary64.ops expR logR sumR).exp (fin (v.getD 0 0))) (fin (v.getD 0 0))) (fin (v.getD 0 0)) = fin l ∧
      |l| ≤ 2 ^ (-28 : ℤ) := by
    rcases le_total (v.getD 0 0) (-35) with h | h
    · exact ⟨0, Binary64.expDiag_zero c hr h, by rw [abs_zero]; positivity⟩
    · obtain ⟨l, hl, -, happ⟩ := Binary64.expDiag_app c hr (by linarith [show (35 : ℝ) ≤ 2 ^ 100 by norm_num])
        (by linarith)
      refine ⟨l, hl, ?_⟩
      have hE : Real.exp (v.getD 0 0) ≤ 2 ^ (-28 : ℤ) / (3 / 2) := by
        rw [← Real.le_log_iff_exp_le (by positivity), Real.log_div (by positivity) (by norm_num), Real.log_zpow]
        have h1 := Real.log_two_lt_d9
        have h2 : Real.log (3 / 2) ≤ 1 / 2 := by
          have := Real.log_le_sub_one_of_pos (show (0 : ℝ) < 3 / 2 by norm_num)
          linarith
        push_cast
        linarith
      have h1 := happ.err
      have h2 : |v.getD 0 0| ≤ 35 := abs_le.2 ⟨by linarith, by linarith⟩
      have h3 := abs_sub_abs_le_abs_sub l (Real.exp (v.getD 0 0))
      rw [abs_of_pos (Real.exp_pos _)] at h3
      rw [Binary64.ulp_eq] at h1
      generalize v.getD 0 0 = d at *
      norm_num at hE h1 ⊢
      linarith
  have hll : |l * l| ≤ 2 ^ (-56 : ℤ) := by
    rw [abs_mul, show (2 : ℝ) ^ (-56 : ℤ) = 2 ^ (-28 : ℤ) * 2 ^ (-28 : ℤ) by norm_num]
    exact mul_le_mul hlb2 hlb2 (abs_nonneg _) (by positivity)
  have hrep56 := Binary64.rep_zpow (-56) (by norm_num) (by norm_num)
  obtain ⟨p, hp, hp0, hp1⟩ := Flt.between_fin (Binary64.rnd_mono_le (x := l * l) c.zero (mul_self_nonneg l))
    (Binary64.rnd_mono_ge hrep56 (le_trans (le_abs_self _) hll))
  obtain ⟨a, ha, hra, herr⟩ := Binary64.unpack_first c hs hn0 hn (fin lb) v hl hp (by
    rw [abs_of_nonneg hp0]
    exact hp1.trans (Binary64.zpow_le (by norm_num)))
  rw [abs_of_nonneg hp0] at herr
  have hab : |a| ≤ 2 ^ (-55 : ℤ) := by
    have h1 := abs_sub_abs_le_abs_sub a p
    rw [abs_of_nonneg hp0] at h1
    have h2 : 2 * Binary64.ulp * n ≤ 1 := by
      have : (n : ℝ) ≤ 2 ^ 40 := by exact_mod_cast hn
      rw [Binary64.ulp_eq]
      generalize (n : ℝ) = m at *
      norm_num at this ⊢
      linarith
    have h3 : 2 * Binary64.ulp * n * p ≤ p := mul_le_of_le_one_left hp0 h2
    have h4 : (2 : ℝ) ^ (-55 : ℤ) = 2 * 2 ^ (-56 : ℤ) := by norm_num
    rw [h4]
    linarith
  have hsum : (Binary64.ops expR logR sumR).add (fin a) (fin lb) = fin lb := by
    show Binary64.rnd (a + lb) = fin lb
    rw [add_comm]
    exact Binary64.rnd_absorb (k := 0) hlb (by simpa using hlb1) (by norm_num) hab
  rw [hsum] at ha
  refine ⟨ha, fun h => ?_⟩
  have h1 := (FloatOps.round_trip_first _ (Binary64.sum_nil hs) hn0 (fin lb) v w h).1
  have h2 : (Binary64.ops expR logR sumR).sub (fin lb) (fin lb) = fin 0 := by
    show Binary64.rnd (lb + -lb) = fin 0
    rw [add_neg_cancel]
    exact c.rnd_rep c.zero
  rw [ha, h2, Binary64.sub_zero_rep c c.zero] at h1
  exact lt_irrefl (0 : ℝ) h1

/-- The numbers that occur for a large first entry. -/
theorem Binary64.large_first {expR logR : ℝ → Flt} {sumR : List ℝ → Flt}
    (c : FloatContract (Binary64.ops expR logR sumR) (2 ^ 1024) (2 ^ (-1075 : ℤ)))
    (hs : AccurateSum (Binary64.ops expR logR sumR)) (n : ℕ) (hn0 : 0 < n) (hn : n ≤ 2 ^ 40) (v : List ℝ)
    (hr : Binary64.Rep (v.getD 0 0)) (hd : 47 ≤ v.getD 0 0) (hd2 : v.getD 0 0 ≤ 100) :
    ∃ a q, (Binary64.ops expR logR sumR).unpackPosdef n (fin 0) v 0 0 = fin a ∧ Binary64.Rep a ∧ 0 < a ∧
      (Binary64.ops expR logR sumR).sqrt (fin a) = fin q ∧
      (Binary64.ops expR logR sumR).sub ((Binary64.ops expR logR sumR).add
        ((Binary64.ops expR logR sumR).log (fin q)) (fin q)) (fin q) = fin 0 := by
  have hu := Binary64.ulp_pos
  obtain ⟨l, hl, -, happ⟩ := Binary64.expDiag_app c hr (by linarith [show (0 : ℝ) ≤ 2 ^ 100 by norm_num]) hd2
  have l1 := Real.log_two_lt_d9
  have l2 := Real.log_two_gt_d9
  have hE : (2 : ℝ) ^ (67 : ℤ) ≤ Real.exp (v.getD 0 0) := by
    rw [← Real.log_le_iff_le_exp (Binary64.two_zpow_pos _), Real.log_zpow]
    push_cast
    linarith
  have hE2 : Real.exp (v.getD 0 0) ≤ 2 ^ (150 : ℤ) := by
    rw [← Real.le_log_iff_exp_le (Binary64.two_zpow_pos _), Real.log_zpow]
    push_cast
    linarith
  have hlb : 17 / 16 * 2 ^ (67 : ℤ) * (15 / 16) ≤ 17 / 16 * l ∧ l ≤ 2 * 2 ^ (150 : ℤ) := by
    have h1 := abs_le.1 happ.err
    rw [Binary64.ulp_eq] at h1
    have h2 : |v.getD 0 0| ≤ 100 := abs_le.2 ⟨by linarith, hd2⟩
    generalize v.getD 0 0 = d at *
    norm_num at hE hE2 h1 ⊢
    constructor <;> linarith [h1.1, h1.2]
  have hlo : (2 : ℝ) ^ (66 : ℤ) ≤ l := by
    have := hlb.1
    norm_num at this ⊢
    linarith
  have hhi : l ≤ 2 ^ (151 : ℤ) := by
    have := hlb.2
    rwa [Binary64.two_mul_zpow] at this
  clear hlb
  obtain ⟨p, hp, hpb, hroot⟩ := Binary64.square_root ((Binary64.zpow_le (by norm_num)).trans hlo)
    (hhi.trans (Binary64.zpow_le (by norm_num))) hn
  obtain ⟨a, ha, hra, herr⟩ := Binary64.unpack_first c hs hn0 hn (fin 0) v hl hp hpb
  obtain ⟨ha0, q, hq, hrq, hq0, hqlo, hqhi, -⟩ := hroot a herr
  rw [Binary64.add_zero_rep c hra] at ha
  have hsq : (Binary64.ops expR logR sumR).sqrt (fin a) = fin q := by
    show (if 0 ≤ a then Binary64.rnd (Real.sqrt a) else nan) = fin q
    rw [if_pos ha0.le]
    exact hq
  refine ⟨a, q, ha, hra, ha0, hsq, Binary64.logDiag_zero c hrq ?_ ?_⟩
  · refine le_trans ?_ hqlo
    rw [le_div_iff₀ (by norm_num)]
    refine le_trans (le_of_eq ?_) hlo
    norm_num
  · refine hqhi.trans ((mul_le_mul_of_nonneg_left hhi (by norm_num)).trans ?_)
    rw [show (4 : ℝ) = 2 ^ (2 : ℤ) by norm_num, ← zpow_add₀ two_ne_zero]
    exact Binary64.zpow_le (by norm_num)

/-- **C131** is false for large free values: for every size and every free value whose first entry lies between
47 and 100, the first entry that `get_free` returns (if it does not raise) is exactly zero, because the logarithm
is lost in `log(l) + l - l`. -/
theorem C131_large_counterexample {expR logR : ℝ → Flt} {sumR : List ℝ → Flt}
    (c : FloatContract (Binary64.ops expR logR sumR) (2 ^ 1024) (2 ^ (-1075 : ℤ)))
    (hs : AccurateSum (Binary64.ops expR logR sumR)) (n : ℕ) (hn0 : 0 < n) (hn : n ≤ 2 ^ 40) (v : List ℝ)
    (hr : Binary64.Rep (v.getD 0 0)) (hd : 47 ≤ v.getD 0 0) (hd2 : v.getD 0 0 ≤ 100) (w : List Flt)
    (h : (Binary64.ops expR logR sumR).posdefRoundTrip n (fin 0) v = .ok w) : w.head? = some (fin 0) := by
  obtain ⟨a, q, ha, hra, ha0, hsq, hz⟩ := Binary64.large_first c hs n hn0 hn v hr hd hd2
  have h2 := (FloatOps.round_trip_first _ (Binary64.sum_nil hs) hn0 (fin 0) v w h).2
  rw [ha, Binary64.sub_zero_rep c hra, Binary64.sub_zero_rep c hra, hsq, hz] at h2
  exact h2

/-- The hypothesis of `C131_large_counterexample` is met: a `1 × 1` matrix. -/
theorem C131_large_single_counterexample {expR logR : ℝ → Flt} {sumR : List ℝ → Flt}
    (c : FloatContract (Binary64.ops expR logR sumR) (2 ^ 1024) (2 ^ (-1075 : ℤ)))
    (hs : AccurateSum (Binary64.ops expR logR sumR)) (d : ℝ) (hr : Binary64.Rep d) (hd : 47 ≤ d) (hd2 : d ≤ 100) :
    (Binary64.ops expR logR sumR).posdefRoundTrip 1 (fin 0) [d] = .ok [fin 0] := by
  obtain ⟨a, q, ha, hra, ha0, hsq, hz⟩ := Binary64.large_first c hs 1 (by norm_num) (by norm_num) [d] hr hd hd2
  set o := Binary64.ops expR logR sumR with ho
  have hset : o.posdefSetFree 1 (fin 0) [d] = .ok (o.unpackPosdef 1 (fin 0) [d]) := by
    unfold FloatOps.posdefSetFree
    rw [if_pos]
    intro i hi j hj
    obtain rfl : i = 0 := by omega
    obtain rfl : j = 0 := by omega
    rw [ha]
    rfl
  have subz : ∀ x, Binary64.Rep x → o.sub (fin x) (fin 0) = fin x := fun x hx => Binary64.sub_zero_rep c hx
  have sum0 : o.sum [] = fin 0 := Binary64.sum_nil hs
  have p1 : fin 0 < fin a := ha0
  have hM : FloatOps.makeDiagonal (fun _ => fin 0) 0 0 = fin 0 := if_pos rfl
  have ht : trilIndices 1 = [(0, 0)] := rfl
  unfold FloatOps.posdefRoundTrip
  rw [hset]
  simp only [Bind.bind, Except.bind, FloatOps.packPosdef, FloatOps.choleskyColumns, List.range_zero, List.map_nil, hM,
    ha, sum0, subz _ hra, p1, not_true_eq_false, if_false, ht, List.map_cons]
  congr 2
  unfold FloatOps.logMatrixDiagonal FloatOps.makeDiagonal
  simp only [if_true]
  rw [hsq]
  exact hz

/-- **C131** is false for large entries below the diagonal: with the free value `[0, b, 0]` of a `2 × 2` matrix,
for every double `b` from `2^28` to `2^500`, `set_free` succeeds and `get_free` raises `LinAlgError`, because the
last diagonal entry `b² + 1` is rounded to `b²`. -/
theorem C131_off_diagonal_counterexample {expR logR : ℝ → Flt} {sumR : List ℝ → Flt}
    (c : FloatContract (Binary64.ops expR logR sumR) (2 ^ 1024) (2 ^ (-1075 : ℤ)))
    (hs : SmallSums (Binary64.ops expR logR sumR)) (b : ℝ) (hr : Binary64.Rep b) (hb : 2 ^ (28 : ℤ) ≤ b)
    (hb2 : b ≤ 2 ^ (500 : ℤ)) :
    (∃ A, (Binary64.ops expR logR sumR).posdefSetFree 2 (fin 0) [0, b, 0] = .ok A) ∧
      (Binary64.ops expR logR sumR).posdefRoundTrip 2 (fin 0) [0, b, 0] = .error .linAlgError := by
  set o := Binary64.ops expR logR sumR with ho
  have hb0 : 0 < b := (Binary64.two_zpow_pos _).trans_le hb
  obtain ⟨B, hB, hrB⟩ := Binary64.rnd_finite (x := b * b) (by
    rw [abs_of_pos (mul_pos hb0 hb0)]
    refine le_trans (mul_le_mul hb2 hb2 hb0.le (Binary64.two_zpow_pos _).le) ?_
    rw [← zpow_add₀ two_ne_zero]
    exact (Binary64.zpow_lt_max (by norm_num)).le)
  have hBlo : 2 ^ (56 : ℤ) ≤ B := by
    have h1 : (2 : ℝ) ^ (56 : ℤ) ≤ b * b := by
      rw [show (2 : ℝ) ^ (56 : ℤ) = 2 ^ (28 : ℤ) * 2 ^ (28 : ℤ) by norm_num]
      exact mul_le_mul hb hb (Binary64.two_zpow_pos _).le hb0.le
    have := Binary64.rnd_mono_le (Binary64.rep_zpow 56 (by norm_num) (by norm_num)) h1
    rwa [hB] at this
  have mulz : ∀ x, o.mul (fin x) (fin 0) = fin 0 := by
    intro x
    show Binary64.rnd (x * 0) = fin 0
    rw [mul_zero]
    exact c.rnd_rep c.zero
  have mul1 : ∀ x, Binary64.Rep x → o.mul (fin x) (fin 1) = fin x := by
    intro x hx
    show Binary64.rnd (x * 1) = fin x
    rw [mul_one]
    exact c.rnd_rep hx
  have addz : ∀ x, Binary64.Rep x → o.add (fin x) (fin 0) = fin x := fun x hx => Binary64.add_zero_rep c hx
  have subz : ∀ x, Binary64.Rep x → o.sub (fin x) (fin 0) = fin x := fun x hx => Binary64.sub_zero_rep c hx
  have sum2 : ∀ x y, Binary64.Rep x → Binary64.Rep y → o.sum [fin x, fin y] = Binary64.rnd (x + y) := by
    intro x y hx hy
    have : o.sum [fin x, fin y] = sumR [x, y] := by simp [FloatOps.sum, ho, Binary64.ops]
    rw [this]
    exact hs.two hx hy
  have sum1 : ∀ x, Binary64.Rep x → o.sum [fin x] = fin x := by
    intro x hx
    have : o.sum [fin x] = sumR [x] := by simp [FloatOps.sum, ho, Binary64.ops]
    rw [this]
    exact hs.one hx
  have sum0 : o.sum [] = fin 0 := by
    have : o.sum [] = sumR [] := by simp [FloatOps.sum, ho, Binary64.ops]
    rw [this]
    exact hs.nil
  have one : Binary64.Rep 1 := c.one
  have zero : Binary64.Rep 0 := c.zero
  have f00 : o.expMatrixDiagonal (FloatOps.ldMatrix [0, b, 0]) 0 0 = fin 1 := by
    rw [FloatOps.expMatrixDiagonal_diag]
    show o.sub (o.add (o.exp (fin 0)) (fin 0)) (fin 0) = fin 1
    rw [show o.exp (fin 0) = fin 1 from c.exp_zero, addz _ one, subz _ one]
  have f11 : o.expMatrixDiagonal (FloatOps.ldMatrix [0, b, 0]) 1 1 = fin 1 := by
    rw [FloatOps.expMatrixDiagonal_diag]
    show o.sub (o.add (o.exp (fin 0)) (fin 0)) (fin 0) = fin 1
    rw [show o.exp (fin 0) = fin 1 from c.exp_zero, addz _ one, subz _ one]
  have f01 : o.expMatrixDiagonal (FloatOps.ldMatrix [0, b, 0]) 0 1 = fin 0 :=
    FloatOps.expMatrixDiagonal_upper c _ (by norm_num)
  have f10 : o.expMatrixDiagonal (FloatOps.ldMatrix [0, b, 0]) 1 0 = fin b :=
    FloatOps.expMatrixDiagonal_lower c [0, b, 0] (i := 1) (j := 0) (by norm_num) hr
  have u : ∀ i j, o.unpackPosdef 2 (fin 0) [0, b, 0] i j =
      o.add (o.sum [o.mul (o.expMatrixDiagonal (FloatOps.ldMatrix [0, b, 0]) i 0)
        (o.expMatrixDiagonal (FloatOps.ldMatrix [0, b, 0]) j 0),
        o.mul (o.expMatrixDiagonal (FloatOps.ldMatrix [0, b, 0]) i 1)
        (o.expMatrixDiagonal (FloatOps.ldMatrix [0, b, 0]) j 1)]) (fin 0) := by
    intro i j
    unfold FloatOps.unpackPosdef FloatOps.matmulTranspose FloatOps.makeDiagonal
    rw [ite_self]
    rfl
  have mulb : o.mul (fin b) (fin b) = fin B := hB
  have u00 : o.unpackPosdef 2 (fin 0) [0, b, 0] 0 0 = fin 1 := by
    rw [u, f00, f01, mul1 _ one, mulz, sum2 _ _ one zero, add_zero, show Binary64.rnd 1 = fin 1 from c.rnd_rep one,
      addz _ one]
  have u10 : o.unpackPosdef 2 (fin 0) [0, b, 0] 1 0 = fin b := by
    rw [u, f10, f00, f11, f01, mul1 _ hr, mulz, sum2 _ _ hr zero, add_zero, show Binary64.rnd b = fin b from c.rnd_rep hr,
      addz _ hr]
  have u11 : o.unpackPosdef 2 (fin 0) [0, b, 0] 1 1 = fin B := by
    rw [u, f10, f11, mulb, mul1 _ one, sum2 _ _ hrB one, Binary64.rnd_absorb (k := 56) hrB hBlo (by norm_num)
      (by norm_num), addz _ hrB]
  have u01 : o.unpackPosdef 2 (fin 0) [0, b, 0] 0 1 = fin b := by rw [o.unpackPosdef_symm, u10]
  have hset : o.posdefSetFree 2 (fin 0) [0, b, 0] = .ok (o.unpackPosdef 2 (fin 0) [0, b, 0]) := by
    unfold FloatOps.posdefSetFree
    rw [if_pos]
    intro i hi j hj
    interval_cases i <;> interval_cases j <;> simp only [u00, u10, u11, u01] <;> rfl
  refine ⟨⟨_, hset⟩, ?_⟩
  unfold FloatOps.posdefRoundTrip
  rw [hset]
  have hM : ∀ i j, FloatOps.makeDiagonal (fun _ => fin 0) i j = fin 0 := by
    intro i j
    unfold FloatOps.makeDiagonal
    rw [ite_self]
  have hsq : o.sqrt (fin 1) = fin 1 := by
    show (if (0 : ℝ) ≤ 1 then Binary64.rnd (Real.sqrt 1) else nan) = fin 1
    rw [if_pos zero_le_one, Real.sqrt_one]
    exact c.rnd_rep one
  have hdiv : o.div (fin b) (fin 1) = fin b := by
    show o.round (Flt.div (fin b) (fin 1)) = fin b
    simp only [Flt.div, if_neg (one_ne_zero (α := ℝ)), div_one]
    exact c.rnd_rep hr
  have hBB : o.sub (fin B) (fin B) = fin 0 := by
    show Binary64.rnd (B + -B) = fin 0
    rw [add_neg_cancel]
    exact c.rnd_rep c.zero
  have p1 : fin 0 < fin 1 := zero_lt_one (α := ℝ)
  have p0 : ¬ fin 0 < fin 0 := lt_irrefl (0 : ℝ)
  simp only [Bind.bind, Except.bind, FloatOps.packPosdef, FloatOps.choleskyColumns, hM, List.range_zero, List.map_nil,
    List.range_one, List.map_cons, sum0, u00, u10, u11, subz _ one, subz _ hr, subz _ hrB, hsq, p1, not_true_eq_false,
    if_false, if_true, one_ne_zero, zero_lt_one, hdiv, mulb, sum1 _ hrB, hBB, p0, not_false_eq_true]

namespace Binary64

/-- The conditions that follow from a bound on `logCondition`. -/
theorem condition_bounds {d : ℝ} (h : logCondition d ≤ 2 ^ 40) :
    |d| ≤ 40 ∧ 2 * (1 + |d|) ≤ logCondition d ∧ Real.exp d ≤ logCondition d ∧
      (Real.exp d + 2 * |d| + 3) ≤ 4 * logCondition d * Real.exp d := by
  have h0 := abs_nonneg d
  have hE := Real.exp_pos d
  have hE' := Real.exp_pos (-d)
  have hEE : Real.exp d * Real.exp (-d) = 1 := by rw [← Real.exp_add, add_neg_cancel, Real.exp_zero]
  have h2 : 2 ≤ Real.exp d + Real.exp (-d) := by nlinarith [sq_nonneg (Real.exp d - Real.exp (-d)), sq_nonneg (Real.exp d + Real.exp (-d) - 2)]
  have hK : logCondition d = (1 + |d|) * (Real.exp d + Real.exp (-d)) := rfl
  refine ⟨?_, ?_, ?_, ?_⟩
  · by_contra hc
    push Not at hc
    have h3 : Real.exp 40 ≤ Real.exp d + Real.exp (-d) := by
      rcases le_total 0 d with hd | hd
      · rw [abs_of_nonneg hd] at hc
        linarith [Real.exp_le_exp.2 hc.le]
      · rw [abs_of_nonpos hd] at hc
        linarith [Real.exp_le_exp.2 hc.le]
    have h4 : (2 : ℝ) ^ 40 < Real.exp 40 := by
      rw [← Real.log_lt_iff_lt_exp (by positivity), Real.log_pow]
      have := Real.log_two_lt_d9
      push_cast
      linarith
    nlinarith
  · rw [hK]
    nlinarith
  · rw [hK]
    nlinarith
  · have : 4 * logCondition d * Real.exp d = 4 * (1 + |d|) * (Real.exp d * Real.exp d + 1) := by
      rw [hK]
      linear_combination 4 * (1 + |d|) * hEE
    rw [this]
    nlinarith [sq_nonneg (Real.exp d - 1 / 2)]

/-- One diagonal entry: the whole round trip. -/
theorem diag_round_trip {expR logR : ℝ → Flt} {sumR : List ℝ → Flt}
    (c : FloatContract (Binary64.ops expR logR sumR) (2 ^ 1024) (2 ^ (-1075 : ℤ))) {n : ℕ} (hn : n ≤ 2 ^ 20) {d : ℝ}
    (hr : Rep d) (hd : logCondition d ≤ 2 ^ 40) :
    ∃ l p, (Binary64.ops expR logR sumR).sub ((Binary64.ops expR logR sumR).add
        ((Binary64.ops expR logR sumR).exp (fin d)) (fin d)) (fin d) = fin l ∧ rnd (l * l) = fin p ∧
      |p| ≤ 2 ^ (1000 : ℤ) ∧ ∀ a, |a - p| ≤ 2 * ulp * n * |p| →
      0 < a ∧ ∃ q r, rnd (Real.sqrt a) = fin q ∧ 0 < q ∧
        (Binary64.ops expR logR sumR).sub ((Binary64.ops expR logR sumR).add
          ((Binary64.ops expR logR sumR).log (fin q)) (fin q)) (fin q) = fin r ∧
        |r - d| ≤ 2 ^ (-52 : ℤ) * (2 * n + 160) * logCondition d := by
  obtain ⟨h1, h2, h3, h4⟩ := condition_bounds hd
  have hu := ulp_pos
  have hE := Real.exp_pos d
  have h0 := abs_nonneg d
  obtain ⟨hd1, hd2⟩ := abs_le.1 h1
  obtain ⟨l, hl, hrl, happ⟩ := expDiag_app c hr (by linarith [show (40 : ℝ) ≤ 2 ^ 100 by norm_num]) (by linarith)
  set K := logCondition d with hK
  have hK40 : K ≤ 2 ^ 40 := hd
  have hε : 20 * ulp * K ≤ 1 / 2 := by
    rw [ulp_eq]
    norm_num at hK40 ⊢
    linarith
  have hlE : |l - Real.exp d| ≤ 20 * ulp * K * Real.exp d := by
    refine happ.err.trans ?_
    have : 5 * ulp * (Real.exp d + 2 * |d| + 3) ≤ 5 * ulp * (4 * K * Real.exp d) :=
      mul_le_mul_of_nonneg_left h4 (by positivity)
    linarith
  obtain ⟨hl0, hll⟩ := log_close hE hlE hε
  rw [Real.log_exp] at hll
  obtain ⟨hl1, hl2⟩ := abs_le.1 hlE
  have hεE : 20 * ulp * K * Real.exp d ≤ 1 / 2 * Real.exp d := mul_le_mul_of_nonneg_right hε hE.le
  have hlo : Real.exp d / 2 ≤ l := by linarith
  have hhi : l ≤ 2 * Real.exp d := by linarith
  obtain ⟨p, hp, hpb, hroot⟩ := square_root (l := l) (n := n)
    (by
      refine le_trans ?_ hlo
      have h5 : (2 : ℝ) ^ (-60 : ℤ) ≤ Real.exp d := by
        rw [← Real.log_le_iff_le_exp (two_zpow_pos _), Real.log_zpow]
        have := Real.log_two_gt_d9
        push_cast
        linarith
      have h6 : (2 : ℝ) ^ (-450 : ℤ) ≤ 2 ^ (-61 : ℤ) := zpow_le (by norm_num)
      have h7 : (2 : ℝ) ^ (-60 : ℤ) = 2 * 2 ^ (-61 : ℤ) := by norm_num
      refine h6.trans ?_
      rw [le_div_iff₀ two_pos, mul_comm, ← h7]
      exact h5)
    (by
      refine hhi.trans ?_
      have h5 : Real.exp d ≤ (2 : ℝ) ^ (60 : ℤ) := by
        rw [← Real.le_log_iff_exp_le (two_zpow_pos _), Real.log_zpow]
        have := Real.log_two_gt_d9
        push_cast
        linarith
      refine (mul_le_mul_of_nonneg_left h5 zero_le_two).trans ?_
      rw [two_mul_zpow]
      exact zpow_le (by norm_num)) (hn.trans (by norm_num))
  refine ⟨l, p, hl, hp, hpb, fun a ha => ?_⟩
  obtain ⟨ha0, q, hq, hrq, hq0, hq1, hq2, hlq⟩ := hroot a ha
  clear hroot hpb
  have hn' : (n : ℝ) ≤ 2 ^ 20 := by exact_mod_cast hn
  have hn0 : (0 : ℝ) ≤ n := by positivity
  have hnu : (2 * (n : ℝ) + 3) * ulp ≤ 1 / 2 := by
    rw [ulp_eq]
    generalize (n : ℝ) = m at *
    norm_num at hn' ⊢
    linarith
  have hqd : |Real.log q - d| ≤ (2 * n + 3) * ulp + 2 * (20 * ulp * K) := by
    have := abs_add_le (Real.log q - Real.log l) (Real.log l - d)
    rw [sub_add_sub_cancel] at this
    linarith
  have hqL : |Real.log q| ≤ |d| + 2 := by
    have := abs_sub_abs_le_abs_sub (Real.log q) d
    linarith
  have hq8 : q ≤ 8 * Real.exp d := by linarith
  obtain ⟨r, hr', hrerr⟩ := logDiag_app c hrq hq0
    (by
      have : K ≤ 2 ^ 40 := hd
      norm_num at this ⊢
      linarith) (by norm_num; linarith)
  refine ⟨ha0, q, r, hq, hq0, hr', ?_⟩
  have e1 : |r - d| ≤ |r - Real.log q| + |Real.log q - d| := by
    have := abs_add_le (r - Real.log q) (Real.log q - d)
    rwa [sub_add_sub_cancel] at this
  change |r - d| ≤ ulp * (2 * n + 160) * K
  have e2 : 6 * ulp * (|Real.log q| + 2 * q + 3) ≤ 6 * ulp * (19 * K) :=
    mul_le_mul_of_nonneg_left (by linarith) (by positivity)
  have e3 : (2 * (n : ℝ) + 3) * ulp ≤ (2 * (n : ℝ) + 3) * ulp * (K / 2) :=
    le_mul_of_one_le_right (by positivity) (by linarith)
  nlinarith [mul_nonneg (mul_nonneg hn0 hu.le) (show 0 ≤ K by linarith)]

end Binary64

/-- **C131**, the round trip, for diagonal matrices of every size: when the entries of the free value below the
diagonal are zero and those on the diagonal are well conditioned, `set_free` and `get_free` do not raise, and the
free value comes back up to a few units in the last place of its condition.  The full property, for all free
values, is false by `C131_small_counterexample`, `C131_large_counterexample`,
`C131_off_diagonal_counterexample` and `C131_lower_bound_counterexample`. -/
theorem C131_diagonal_partial {expR logR : ℝ → Flt} {sumR : List ℝ → Flt}
    (c : FloatContract (Binary64.ops expR logR sumR) (2 ^ 1024) (2 ^ (-1075 : ℤ)))
    (hs : AccurateSum (Binary64.ops expR logR sumR)) (n : ℕ) (hn : n ≤ 2 ^ 20) (v : List ℝ)
    (hv : ∀ a ∈ v, Binary64.Rep a) (hlen : v.length = n * (n + 1) / 2)
    (hoff : ∀ i j, j < i → i < n → v.getD (i * (i + 1) / 2 + j) 0 = 0)
    (hcond : ∀ i < n, logCondition (v.getD (i * (i + 1) / 2 + i) 0) ≤ 2 ^ 40) :
    ∃ w : List ℝ, (Binary64.ops expR logR sumR).posdefRoundTrip n (fin 0) v = .ok (w.map fin) ∧
      w.length = v.length ∧
      (∀ i j, j < i → i < n → w.getD (i * (i + 1) / 2 + j) 0 = 0) ∧
      ∀ i < n, |w.getD (i * (i + 1) / 2 + i) 0 - v.getD (i * (i + 1) / 2 + i) 0| ≤
        2 ^ (-52 : ℤ) * (2 * n + 160) * logCondition (v.getD (i * (i + 1) / 2 + i) 0) := by
  set o := Binary64.ops expR logR sumR with ho
  have hrep : ∀ m, Binary64.Rep (v.getD m 0) := by
    intro m
    rw [List.getD_eq_getElem?_getD]
    rcases lt_or_ge m v.length with h | h
    · rw [List.getElem?_eq_getElem h]
      exact hv _ (List.getElem_mem h)
    · rw [List.getElem?_eq_none h]
      exact c.zero
  have h20 : n ≤ 2 ^ 40 := hn.trans (by norm_num)
  have mulz : ∀ x, o.mul (fin x) (fin 0) = fin 0 := by
    intro x
    show Binary64.rnd (x * 0) = fin 0
    rw [mul_zero]
    exact c.rnd_rep c.zero
  have addz : ∀ x, Binary64.Rep x → o.add (fin x) (fin 0) = fin x := fun x hx => Binary64.add_zero_rep c hx
  have subz : ∀ x, Binary64.Rep x → o.sub (fin x) (fin 0) = fin x := fun x hx => Binary64.sub_zero_rep c hx
  have zero : Binary64.Rep 0 := c.zero
  -- the factor
  have foff : ∀ i < n, ∀ k, k ≠ i → o.expMatrixDiagonal (FloatOps.ldMatrix v) i k = fin 0 := by
    intro i hi k hk
    rcases lt_or_gt_of_ne hk with h | h
    · rw [FloatOps.expMatrixDiagonal_lower c v h (hrep _), hoff i k h hi]
    · exact FloatOps.expMatrixDiagonal_upper c v h
  have main : ∀ i, ∃ l a q r, i < n → o.expMatrixDiagonal (FloatOps.ldMatrix v) i i = fin l ∧ o.unpackPosdef n (fin 0) v i i = fin a ∧ Binary64.Rep a ∧ 0 < a ∧
      o.sqrt (fin a) = fin q ∧ 0 < q ∧ o.sub (o.add (o.log (fin q)) (fin q)) (fin q) = fin r ∧
      |r - v.getD (i * (i + 1) / 2 + i) 0| ≤
        2 ^ (-52 : ℤ) * (2 * n + 160) * logCondition (v.getD (i * (i + 1) / 2 + i) 0) := by
    intro i
    by_cases hi : i < n
    · obtain ⟨l, p, hl, hp, hpb, hall⟩ := Binary64.diag_round_trip c hn (hrep (i * (i + 1) / 2 + i)) (hcond i hi)
      have fii : o.expMatrixDiagonal (FloatOps.ldMatrix v) i i = fin l := by
        rw [FloatOps.expMatrixDiagonal_diag]
        exact hl
      obtain ⟨a, ha, hra, herr⟩ := Binary64.sum_single hs (i := i) h20 hi
        (f := fun k => o.mul (o.expMatrixDiagonal (FloatOps.ldMatrix v) i k)
          (o.expMatrixDiagonal (FloatOps.ldMatrix v) i k)) (Binary64.rep_rnd hp) hpb
        (by rw [fii]; exact hp) (fun k _ hk => by rw [foff i hi k hk, mulz])
      obtain ⟨ha0, q, r, hq, hq0, hr, hrerr⟩ := hall a herr
      refine ⟨l, a, q, r, fun _ => ⟨fii, ?_, hra, ha0, ?_, hq0, hr, hrerr⟩⟩
      · unfold FloatOps.unpackPosdef FloatOps.matmulTranspose FloatOps.makeDiagonal
        rw [ite_self]
        change o.add (o.sum _) (fin 0) = fin a
        change o.sum _ = fin a at ha
        rw [ha, addz a hra]
      · show (if 0 ≤ a then Binary64.rnd (Real.sqrt a) else nan) = fin q
        rw [if_pos ha0.le]
        exact hq
    · exact ⟨0, 0, 0, 0, fun h => absurd h hi⟩
  choose l a q r hmain using main
  have uoff : ∀ i < n, ∀ j < n, i ≠ j → o.unpackPosdef n (fin 0) v i j = fin 0 := by
    intro i hi j hj hij
    unfold FloatOps.unpackPosdef FloatOps.matmulTranspose FloatOps.makeDiagonal
    rw [if_neg hij]
    have := Binary64.sum_zeros hs (m := n) (f := fun k => o.mul (o.expMatrixDiagonal (FloatOps.ldMatrix v) i k)
      (o.expMatrixDiagonal (FloatOps.ldMatrix v) j k)) h20 (by
        intro k hk
        by_cases h : k = i
        · rw [foff j hj k (by rw [h]; exact hij), h, (hmain i hi).1, mulz]
        · rw [foff i hi k h, o.mul_comm]
          by_cases h' : k = j
          · rw [h', (hmain j hj).1, mulz]
          · rw [foff j hj k h', mulz])
    change o.sum _ = fin 0 at this
    rw [this, addz 0 zero]
  have hM : ∀ i j, FloatOps.makeDiagonal (fun _ => fin 0) i j = fin 0 := by
    intro i j
    unfold FloatOps.makeDiagonal
    rw [ite_self]
  -- the Cholesky factor of the stored matrix
  have chol : ∀ m ≤ n, ∃ L, o.choleskyColumns (fun i j => o.sub (o.unpackPosdef n (fin 0) v i j)
        (FloatOps.makeDiagonal (fun _ => fin 0) i j)) m = .ok L ∧
      ∀ i < n, ∀ j < n, L i j = if i = j ∧ j < m then fin (q j) else fin 0 := by
    intro m
    induction m with
    | zero => exact fun _ => ⟨_, rfl, fun i _ j _ => by simp⟩
    | succ m ih =>
      intro hm
      obtain ⟨L, hL, hLv⟩ := ih (by omega)
      have hmn : m < n := by omega
      have hm40 : m ≤ 2 ^ 40 := by omega
      obtain ⟨-, hu, hra, ha0, hsq, hq0, -, -⟩ := hmain m hmn
      have hsum : ∀ i < n, m ≤ i → o.sum ((List.range m).map fun k => o.mul (L i k) (L m k)) = fin 0 := by
        intro i hi hmi
        refine Binary64.sum_zeros hs hm40 fun k hk => ?_
        rw [hLv i hi k (by omega), if_neg (by omega), hLv m hmn k (by omega), if_neg (by omega), mulz]
      refine ⟨fun i j => if j = m then if i = m then fin (q m) else if m < i then
          o.div (o.sub (o.sub (o.unpackPosdef n (fin 0) v i m) (fin 0))
            (o.sum ((List.range m).map fun k => o.mul (L i k) (L m k)))) (fin (q m)) else fin 0 else L i j, ?_, ?_⟩
      · have p1 : fin 0 < fin (a m) := ha0
        unfold FloatOps.choleskyColumns
        rw [hL]
        simp only [Bind.bind, Except.bind, hM, hsum m hmn le_rfl, hu, subz _ hra, p1, not_true_eq_false, if_false, hsq]
      · intro i hi j hj
        dsimp only
        by_cases h1 : j = m
        · subst h1
          rw [if_pos rfl]
          by_cases h2 : i = j
          · rw [if_pos h2, if_pos ⟨h2, by omega⟩]
          · rw [if_neg h2, if_neg (show ¬ (i = j ∧ j < j + 1) by tauto)]
            by_cases h3 : j < i
            · rw [if_pos h3, uoff i hi j hj h2, hsum i hi h3.le, subz 0 zero, subz 0 zero]
              show o.round (Flt.div (fin 0) (fin (q j))) = fin 0
              simp only [Flt.div, if_neg hq0.ne', zero_div]
              exact c.rnd_rep c.zero
            · rw [if_neg h3]
        · rw [if_neg h1, hLv i hi j hj]
          congr 1
          simp only [eq_iff_iff, and_congr_right_iff]
          intro _
          omega
  obtain ⟨L, hL, hLv⟩ := chol n le_rfl
  have hset : o.posdefSetFree n (fin 0) v = .ok (o.unpackPosdef n (fin 0) v) := by
    unfold FloatOps.posdefSetFree
    rw [if_pos]
    intro i hi j hj
    rw [o.unpackPosdef_symm n (fin 0) v j i]
    by_cases h : i = j
    · subst h
      rw [(hmain i hi).2.1]
      rfl
    · rw [uoff i hi j hj h]
      rfl
  have idx : ∀ i j, j ≤ i → i * (i + 1) / 2 + j = symIndex i j := by
    intro i j h
    rw [symIndex, if_pos h, _root_.add_comm]
  have get : ∀ i j, j ≤ i → i < n → ((trilIndices n).map fun p => if p.1 = p.2 then r p.1 else 0).getD
      (i * (i + 1) / 2 + j) 0 = if i = j then r i else 0 := by
    intro i j hj hi
    rw [List.getD_eq_getElem?_getD, List.getElem?_map, idx i j hj, trilIndices_getElem? hj hi]
    rfl
  refine ⟨(trilIndices n).map fun p => if p.1 = p.2 then r p.1 else 0, ?_, ?_, ?_, ?_⟩
  · unfold FloatOps.posdefRoundTrip
    rw [hset]
    simp only [Bind.bind, Except.bind, FloatOps.packPosdef, hL]
    congr 1
    rw [List.map_map]
    refine List.map_congr_left fun p hp => ?_
    obtain ⟨i, j⟩ := p
    obtain ⟨hji, hin⟩ := mem_trilIndices.1 hp
    show o.logMatrixDiagonal L i j = fin (if i = j then r i else 0)
    unfold FloatOps.logMatrixDiagonal FloatOps.makeDiagonal
    by_cases h : i = j
    · subst h
      rw [if_pos rfl, if_pos rfl, if_pos rfl]
      dsimp only
      rw [hLv i hin i hin, if_pos ⟨rfl, hin⟩]
      exact (hmain i hin).2.2.2.2.2.2.1
    · rw [if_neg h, if_neg h, if_neg h, hLv i hin j (by omega), if_neg (by tauto), addz 0 zero, subz 0 zero]
  · rw [List.length_map, trilIndices_length, hlen]
    rfl
  · intro i j hj hi
    rw [get i j hj.le hi, if_neg hj.ne']
  · intro i hi
    rw [get i i le_rfl hi, if_pos rfl]
    exact (hmain i hi).2.2.2.2.2.2.2

/-! ### The hypotheses are met -/

theorem Binary64.ideal_smallSums : SmallSums Binary64.ideal where
  nil := rfl
  one {a} h := by
    show Binary64.rnd (0 + a) = fin a
    rw [zero_add]
    exact Binary64.rnd_rep h
  two {a b} h _ := by
    show (match Binary64.rnd (0 + a) + fin b with | fin r => Binary64.rnd r | y => y) = Binary64.rnd (a + b)
    rw [zero_add, Binary64.rnd_rep h]
    rfl

/-- Non-vacuity of `C131_set_free_accuracy`: a `2 × 2` matrix with lower bound `1` and the free value `[3, -7, 2]`. -/
example : ∃ A : ℕ → ℕ → ℝ, (∃ M, Binary64.ideal.posdefSetFree 2 (fin 1) [3, -7, 2] = .ok M ∧
      ∀ i j, M i j = fin (A i j)) ∧
    ∀ i j, |A i j - posdefExact 2 1 [3, -7, 2] i j| ≤
      2 ^ (-52 : ℤ) * (4 * (2 : ℕ) + 15) * posdefSize 2 1 [3, -7, 2] i j := by
  refine C131_set_free_accuracy Binary64.contract Binary64.ideal_accurateSum 2 (by norm_num) 1 Binary64.contract.one
    (by norm_num) (by norm_num) [3, -7, 2] ?_ ?_
  · intro a ha
    simp only [List.mem_cons, List.not_mem_nil, or_false] at ha
    rcases ha with rfl | rfl | rfl
    · exact_mod_cast Binary64.rep_int 3 (by norm_num)
    · exact_mod_cast Binary64.rep_int (-7) (by norm_num)
    · exact_mod_cast Binary64.rep_int 2 (by norm_num)
  · intro a ha
    simp only [List.mem_cons, List.not_mem_nil, or_false] at ha
    rcases ha with rfl | rfl | rfl <;> norm_num

/-- Non-vacuity of `C131_small_counterexample`: a `2 × 2` matrix with the free value `[-36, 1, 0]`. -/
example (w : List Flt) : Binary64.ideal.posdefRoundTrip 2 (fin 0) [-36, 1, 0] ≠ .ok w :=
  (C131_small_counterexample Binary64.contract Binary64.ideal_accurateSum 2 (by norm_num) (by norm_num) [-36, 1, 0]
    (by exact_mod_cast Binary64.rep_int (-36) (by norm_num)) (by norm_num) w).2

/-- Non-vacuity of `C131_lower_bound_counterexample`. -/
example (w : List Flt) : Binary64.ideal.posdefRoundTrip 2 (fin 1) [-20, 1, 0] ≠ .ok w :=
  (C131_lower_bound_counterexample Binary64.contract Binary64.ideal_accurateSum 2 (by norm_num) (by norm_num) 1
    Binary64.contract.one le_rfl [-20, 1, 0] (by exact_mod_cast Binary64.rep_int (-20) (by norm_num)) (by norm_num) w).2

/-- Non-vacuity of `C131_large_single_counterexample`. -/
example : Binary64.ideal.posdefRoundTrip 1 (fin 0) [50] = .ok [fin 0] :=
  C131_large_single_counterexample Binary64.contract Binary64.ideal_accurateSum 50
    (by exact_mod_cast Binary64.rep_int 50 (by norm_num)) (by norm_num) (by norm_num)

/-- Non-vacuity of `C131_off_diagonal_counterexample`: the free value `[0, 1000000000, 0]`. -/
example : Binary64.ideal.posdefRoundTrip 2 (fin 0) [0, 1000000000, 0] = .error .linAlgError :=
  (C131_off_diagonal_counterexample Binary64.contract Binary64.ideal_smallSums 1000000000
    (by exact_mod_cast Binary64.rep_int 1000000000 (by norm_num)) (by norm_num)
    ((show (1000000000 : ℝ) ≤ 2 ^ (30 : ℤ) by norm_num).trans (Binary64.zpow_le (by norm_num)))).2

/-- Non-vacuity of `C131_diagonal_partial`: a `2 × 2` matrix with the free value `[1, 0, -2]`. -/
example : ∃ w : List ℝ, Binary64.ideal.posdefRoundTrip 2 (fin 0) [1, 0, -2] = .ok (w.map fin) ∧ w.length = 3 := by
  have hexp : ∀ x : ℝ, x ≤ 2 → Real.exp x ≤ 16 := by
    intro x hx
    have h1 := Real.exp_le_exp.2 hx
    have h2 : Real.exp 2 = Real.exp 1 * Real.exp 1 := by rw [← Real.exp_add]; norm_num
    have h3 := Real.exp_one_lt_d9
    have h4 := Real.exp_pos 1
    nlinarith
  obtain ⟨w, h1, h2, -⟩ := C131_diagonal_partial Binary64.contract Binary64.ideal_accurateSum 2 (by norm_num) [1, 0, -2]
    (by
      intro a ha
      simp only [List.mem_cons, List.not_mem_nil, or_false] at ha
      rcases ha with rfl | rfl | rfl
      · exact Binary64.contract.one
      · exact Binary64.contract.zero
      · exact_mod_cast Binary64.rep_int (-2) (by norm_num)) (by simp)
    (by
      intro i j hj hi
      obtain rfl : i = 1 := by omega
      obtain rfl : j = 0 := by omega
      rfl)
    (by
      intro i hi
      have hc : i = 0 ∨ i = 1 := by omega
      rcases hc with rfl | rfl
      · show (1 + |(1 : ℝ)|) * (Real.exp 1 + Real.exp (-1)) ≤ 2 ^ 40
        have := hexp 1 (by norm_num)
        have := hexp (-1) (by norm_num)
        norm_num at *
        linarith
      · show (1 + |(-2 : ℝ)|) * (Real.exp (-2) + Real.exp (- -2)) ≤ 2 ^ 40
        have := hexp (-2) (by norm_num)
        have := hexp (- -2) (by norm_num)
        norm_num at *
        linarith)
  exact ⟨w, h1, h2⟩

end

end LRVB
