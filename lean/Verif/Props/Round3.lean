import Verif.Lemmas.Round4
import Verif.Lemmas.Ld
import Mathlib.Data.List.GetD

/-!
# C112-C114: floating point, default values and matrices
-/

namespace LRVB

open Classical Flt

noncomputable section

/-! ### C112: default values -/

private theorem l1 {a : ℝ} : fin a < pinf := trivial
private theorem l2 {a : ℝ} : ninf < fin a := trivial
private theorem l3 : ninf < pinf := trivial
private theorem n1 : ¬ pinf < pinf := id
private theorem n2 : ¬ ninf < ninf := id

/-- Doubles are multiples of the smallest one. -/
theorem Binary64.Rep.multiple {x : ℝ} (h : Rep x) : ∃ z : ℤ, x = z * 2 ^ (-1074 : ℤ) := by
  obtain ⟨m, e, -, h2, -, rfl⟩ := h
  refine ⟨m * 2 ^ (e + 1074).toNat, ?_⟩
  have h3 : ((e + 1074).toNat : ℤ) = e + 1074 := Int.toNat_of_nonneg (by omega)
  rw [Int.cast_mul, Int.cast_pow, Int.cast_ofNat, ← zpow_natCast, h3, mul_assoc, ← zpow_add₀ two_ne_zero]
  congr 2
  ring

/-- The logarithm of the difference of two doubles is finite. -/
theorem Binary64.log_sub {expR logR : ℝ → Flt} {sumR : List ℝ → Flt}
    (c : FloatContract (Binary64.ops expR logR sumR) (2 ^ 1024) (2 ^ (-1075 : ℤ))) {a b : ℝ}
    (ha : Rep a) (hb : Rep b) (hlt : a < b) (hd : b - a ≤ 2 ^ 60) :
    ∃ y, (Binary64.ops expR logR sumR).log ((Binary64.ops expR logR sumR).sub (fin b) (fin a)) = fin y ∧ Rep y := by
  set o := Binary64.ops expR logR sumR with ho
  obtain ⟨za, hza⟩ := ha.multiple
  obtain ⟨zb, hzb⟩ := hb.multiple
  have ht := two_zpow_pos (-1074)
  have hz : 1 ≤ zb - za := by
    rw [hza, hzb] at hlt
    have := lt_of_mul_lt_mul_right hlt ht.le
    have h2 : za < zb := by exact_mod_cast this
    omega
  have h1 : (2 : ℝ) ^ (-1074 : ℤ) ≤ b + -a := by
    have h2 : ((1 : ℤ) : ℝ) ≤ ((zb - za : ℤ) : ℝ) := by exact_mod_cast hz
    push_cast at h2
    calc (2 : ℝ) ^ (-1074 : ℤ) = 1 * 2 ^ (-1074 : ℤ) := (one_mul _).symm
      _ ≤ (zb - za) * 2 ^ (-1074 : ℤ) := mul_le_mul_of_nonneg_right h2 ht.le
      _ = b + -a := by rw [hza, hzb]; ring
  have h60 : Rep (2 ^ 60) := by
    rw [← zpow_natCast]
    exact rep_zpow _ (by norm_num) (by norm_num)
  obtain ⟨d, hd1, hd2, -⟩ := Flt.between_fin (c.le_rnd (rep_zpow (-1074) (by norm_num) (by norm_num)) h1)
    (c.rnd_le h60 (show b + -a ≤ 2 ^ 60 by linarith))
  have hd0 : 0 < d := ht.trans_le hd2
  obtain ⟨y, hy, hyr⟩ := c.rep_log hd0 (c.rep_rnd hd1)
  refine ⟨y, ?_, hyr⟩
  have h3 : o.sub (fin b) (fin a) = fin d := hd1
  rw [h3]
  show (if 0 < d then o.logR d else _) = fin y
  rw [if_pos hd0]
  exact hy

/-- **C112** for a lower bound of moderate size: the default value lies strictly inside and its free value is
a finite number. -/
theorem C112_lower_partial (expR logR : ℝ → Flt) (sumR : List ℝ → Flt)
    (c : FloatContract (Binary64.ops expR logR sumR) (2 ^ 1024) (2 ^ (-1075 : ℤ))) (lb : ℝ)
    (hr : Binary64.Rep lb) (hb : |lb| ≤ 2 ^ 52) :
    ∃ v y, (Binary64.ops expR logR sumR).getInboundsValue (fin lb) pinf = .ok (fin v) ∧ lb < v ∧
      (Binary64.ops expR logR sumR).unconstrainScalar (fin v) (fin lb) pinf = .ok (fin y) := by
  obtain ⟨hb1, hb2⟩ := abs_le.1 hb
  set o := Binary64.ops expR logR sumR with ho
  have hk1 := Int.lt_floor_add_one lb
  have hk2 := Int.floor_le lb
  have hkr : Binary64.Rep ((⌊lb⌋ + 1 : ℤ) : ℝ) := by
    refine Binary64.rep_int _ ?_
    have h1 : (-2 ^ 52 : ℤ) ≤ ⌊lb⌋ := Int.le_floor.2 (by push_cast; linarith)
    have h2 : ⌊lb⌋ ≤ 2 ^ 52 := by exact_mod_cast hk2.trans hb2
    rw [abs_lt]
    constructor <;> omega
  have h53 : Binary64.Rep (2 ^ 53) := by
    rw [← zpow_natCast]
    exact Binary64.rep_zpow _ (by norm_num) (by norm_num)
  obtain ⟨v, hv, hv1, hv2⟩ := Flt.between_fin
    (c.le_rnd hkr (x := lb + 1) (by push_cast; linarith)) (c.rnd_le h53 (x := lb + 1) (by norm_num at hb2 ⊢; linarith))
  have hlt : lb < v := by push_cast at hv1; linarith
  have hvr : Binary64.Rep v := c.rep_rnd hv
  obtain ⟨y, hy, -⟩ := Binary64.log_sub c hr hvr hlt (by norm_num at hb1 hv2 ⊢; linarith)
  refine ⟨v, y, ?_, hlt, ?_⟩
  · have h1 : o.add (fin lb) (fin 1) = fin v := hv
    unfold FloatOps.getInboundsValue
    rw [if_neg (not_not.2 l1), if_neg (fun h => n1 h.2), if_pos l2, h1]
  · simp only [FloatOps.unconstrainScalar, FloatOps.unconstrain, Flt.eq]
    rw [hy]
    simp [hlt.le]

/-- **C112** for an upper bound of moderate size. -/
theorem C112_upper_partial (expR logR : ℝ → Flt) (sumR : List ℝ → Flt)
    (c : FloatContract (Binary64.ops expR logR sumR) (2 ^ 1024) (2 ^ (-1075 : ℤ))) (ub : ℝ)
    (hr : Binary64.Rep ub) (hb : |ub| ≤ 2 ^ 52) :
    ∃ v y, (Binary64.ops expR logR sumR).getInboundsValue ninf (fin ub) = .ok (fin v) ∧ v < ub ∧
      (Binary64.ops expR logR sumR).unconstrainScalar (fin v) ninf (fin ub) = .ok (fin y) := by
  obtain ⟨hb1, hb2⟩ := abs_le.1 hb
  set o := Binary64.ops expR logR sumR with ho
  have hk1 := Int.ceil_lt_add_one ub
  have hk2 := Int.le_ceil ub
  have hkr : Binary64.Rep ((⌈ub⌉ - 1 : ℤ) : ℝ) := by
    refine Binary64.rep_int _ ?_
    have h1 : ⌈ub⌉ ≤ (2 ^ 52 : ℤ) := Int.ceil_le.2 (by push_cast; linarith)
    have h2 : -2 ^ 52 ≤ ⌈ub⌉ := by exact_mod_cast hb1.trans hk2
    rw [abs_lt]
    constructor <;> omega
  have h53 : Binary64.Rep (-2 ^ 53) := by
    refine Binary64.Rep.neg ?_
    rw [← zpow_natCast]
    exact Binary64.rep_zpow _ (by norm_num) (by norm_num)
  obtain ⟨v, hv, hv1, hv2⟩ := Flt.between_fin
    (c.le_rnd h53 (x := ub + -1) (by norm_num at hb1 ⊢; linarith)) (c.rnd_le hkr (x := ub + -1) (by push_cast; linarith))
  have hlt : v < ub := by push_cast at hv2; linarith
  have hvr : Binary64.Rep v := c.rep_rnd hv
  obtain ⟨y, hy, hyr⟩ := Binary64.log_sub c hvr hr hlt (by norm_num at hb2 hv1 ⊢; linarith)
  refine ⟨v, -y, ?_, hlt, ?_⟩
  · have h1 : o.sub (fin ub) (fin 1) = fin v := hv
    unfold FloatOps.getInboundsValue
    rw [if_neg (not_not.2 l2), if_neg (fun h => n2 h.1), if_neg n2, if_pos l1, h1]
  · have h5 : o.mul (fin (-1)) (fin y) = fin (-y) := by
      show Binary64.rnd (-1 * y) = fin (-y)
      rw [neg_one_mul]
      exact c.rnd_rep (c.neg hyr)
    simp only [FloatOps.unconstrainScalar, FloatOps.unconstrain, Flt.eq]
    rw [hy, h5]
    simp [hlt.le]

/-- **C112** for unbounded parameters: the default is 0. -/
theorem C112_unbounded_partial (o : FloatOps) :
    o.getInboundsValue ninf pinf = .ok (fin 0) ∧ o.unconstrainScalar (fin 0) ninf pinf = .ok (fin 0) := by
  constructor
  · unfold FloatOps.getInboundsValue
    rw [if_neg (not_not.2 l3), if_neg (fun h => n1 h.2), if_neg n2, if_neg n1]
  · simp [FloatOps.unconstrainScalar, FloatOps.unconstrain, Flt.eq]

/-- **C112** is false for large bounds: in double precision, with lower bound `2 ** 55`, the default value is
the bound itself and `get_free()` returns minus infinity. -/
theorem C112_large_counterexample (expR logR : ℝ → Flt) (sumR : List ℝ → Flt)
    (c : FloatContract (Binary64.ops expR logR sumR) (2 ^ 1024) (2 ^ (-1075 : ℤ))) :
    (Binary64.ops expR logR sumR).getInboundsValue (fin (2 ^ 55)) pinf = .ok (fin (2 ^ 55)) ∧
    (Binary64.ops expR logR sumR).unconstrainScalar (fin (2 ^ 55)) (fin (2 ^ 55)) pinf = .ok ninf := by
  set o := Binary64.ops expR logR sumR with ho
  have hr : Binary64.Rep (2 ^ 55) := by
    rw [← zpow_natCast]
    exact Binary64.rep_zpow _ (by norm_num) (by norm_num)
  constructor
  · have h1 : o.add (fin (2 ^ 55)) (fin 1) = fin (2 ^ 55) := by
      show Binary64.rnd (2 ^ 55 + 1) = _
      rw [add_comm]
      exact Binary64.rnd_of_near (Binary64.near_one_add hr le_rfl) hr
    unfold FloatOps.getInboundsValue
    rw [if_neg (not_not.2 l1), if_neg (fun h => n1 h.2), if_pos l2, h1]
  · have h1 : o.sub (fin (2 ^ 55)) (fin (2 ^ 55)) = fin 0 := by
      show Binary64.rnd (2 ^ 55 + -2 ^ 55) = fin 0
      rw [add_neg_cancel]
      exact c.rnd_rep c.zero
    have h2 : o.log (fin 0) = ninf := by simp [FloatOps.log, Flt.log]
    simp only [FloatOps.unconstrainScalar, FloatOps.unconstrain, Flt.eq, h1, h2]
    simp

/-- **C112** is false for wide intervals: when the width overflows the default value is infinite and
`get_free()` raises. -/
theorem C112_width_counterexample {o : FloatOps} {over under : ℝ} (c : FloatContract o over under)
    (lb ub : ℝ) (hlt : lb < ub) (hov : over ≤ ub - lb) :
    o.getInboundsValue (fin lb) (fin ub) = .ok pinf ∧
    o.unconstrainScalar pinf (fin lb) (fin ub) = .error .valueError := by
  constructor
  · have h1 : o.sub (fin ub) (fin lb) = pinf := c.rnd_over (by rwa [sub_eq_add_neg] at hov)
    unfold FloatOps.getInboundsValue
    rw [if_neg (not_not.2 (show fin lb < fin ub from hlt)), if_pos ⟨l2, l1⟩, h1]
    show Except.ok (o.round (infMul (1 / 2))) = _
    rw [infMul, if_pos (by norm_num)]
    rfl
  · simp [FloatOps.unconstrainScalar]

/-- Bounds of `-2 ** 1023` and `2 ** 1023`. -/
example : Binary64.Rep (2 ^ 1023) ∧ Binary64.Rep (-2 ^ 1023) ∧ (2 : ℝ) ^ 1024 ≤ 2 ^ 1023 - -2 ^ 1023 := by
  refine ⟨Binary64.rep_pow1023, Binary64.rep_pow1023.neg, ?_⟩
  rw [sub_neg_eq_add, ← two_mul, ← pow_succ']

/-- A bound of moderate size. -/
example : Binary64.Rep (-1 / 2) ∧ |(-1 / 2 : ℝ)| ≤ 2 ^ 52 := by
  refine ⟨⟨-1, -1, by norm_num, by norm_num, by norm_num, by norm_num⟩, ?_⟩
  rw [abs_of_neg] <;> norm_num

/-! ### C113: `set_vector` and `get_vector` of matrices -/

/-- **C113**, the part that holds: if no diagonal entry becomes too large when doubled, `get_vector()` returns
exactly the numbers given to `set_vector`. -/
theorem C113_matrix_vector_partial {o : FloatOps} {over under : ℝ} (c : FloatContract o over under)
    (n : ℕ) (v : List ℝ) (hn : n * (n + 1) = 2 * v.length) (hv : ∀ a ∈ v, o.Rep a)
    (hd : ∀ i < n, o.Rep (2 * v.getD (symIndex i i) 0)) :
    o.symVectorRoundTrip n v = v.map fin := by
  have hlen : v.length = tri n := by unfold tri; omega
  have hrep : ∀ k, o.Rep (v.getD k 0) := by
    intro k
    rcases lt_or_ge k v.length with h | h
    · rw [List.getD_eq_getElem _ _ h]
      exact hv _ (List.getElem_mem h)
    · rw [List.getD_eq_default _ _ h]
      exact c.zero
  have key : ∀ p ∈ trilIndices n, o.unvectorizeSymEntry v p.1 p.2 = fin (v.getD (symIndex p.1 p.2) 0) := by
    rintro ⟨i, j⟩ hp
    simp only [trilIndices, List.mem_flatMap, List.mem_range, List.mem_map, Prod.mk.injEq] at hp
    obtain ⟨i', hi, j', hj, rfl, rfl⟩ := hp
    have hji : j' ≤ i' := by omega
    unfold FloatOps.unvectorizeSymEntry
    simp only [hji, if_true]
    rcases Nat.lt_or_ge j' i' with h | h
    · rw [if_neg (show ¬ i' ≤ j' by omega), if_neg (show ¬ i' = j' by omega)]
      set d := v.getD (symIndex i' j') 0 with hdd
      have h1 : o.add (fin d) (fin 0) = fin d := by
        show o.rnd (d + 0) = fin d
        rw [add_zero]
        exact c.rnd_rep (hrep _)
      rw [h1]
      show o.rnd (d + -0) = fin d
      rw [neg_zero, add_zero]
      exact c.rnd_rep (hrep _)
    · obtain rfl : j' = i' := by omega
      rw [if_pos le_rfl, if_pos rfl]
      set d := v.getD (symIndex j' j') 0 with hdd
      have h1 : o.add (fin d) (fin d) = fin (2 * d) := by
        show o.rnd (d + d) = _
        rw [← two_mul]
        exact c.rnd_rep (hd j' hi)
      rw [h1]
      show o.rnd (2 * d + -d) = fin d
      rw [show 2 * d + -d = d by ring]
      exact c.rnd_rep (hrep _)
  unfold FloatOps.symVectorRoundTrip
  rw [List.map_congr_left key]
  conv_rhs => rw [← map_getD_symIndex hlen]
  rw [List.map_map]
  rfl

/-- In double precision the condition is that no diagonal entry reaches `2 ** 1023`. -/
theorem Binary64.Rep.double {x : ℝ} (h : Rep x) (hb : |x| < 2 ^ 1023) : Rep (2 * x) := by
  have h1 : |2 * x| < 2 ^ 1024 := by
    rw [abs_mul, abs_two, pow_succ' 2 1023]
    exact mul_lt_mul_of_pos_left hb two_pos
  obtain ⟨m, e, hm, he, he', rfl⟩ := h
  by_cases hc : e < 971
  · refine ⟨m, e + 1, hm, by omega, by omega, ?_⟩
    rw [zpow_add₀ two_ne_zero]
    ring
  · obtain rfl : e = 971 := by omega
    refine ⟨2 * m, 971, ?_, by norm_num, by norm_num, by push_cast; ring⟩
    have h2 : |2 * ((m : ℝ) * 2 ^ (971 : ℤ))| = |((2 * m : ℤ) : ℝ)| * 2 ^ (971 : ℤ) := by
      rw [← mul_assoc, abs_mul, abs_of_pos (two_zpow_pos 971)]
      push_cast
      rfl
    have h3 : (2 : ℝ) ^ 1024 = 2 ^ 53 * 2 ^ (971 : ℤ) := by
      rw [← zpow_natCast, ← zpow_natCast, ← zpow_add₀ two_ne_zero]
      rfl
    rw [h2, h3] at h1
    have h4 := lt_of_mul_lt_mul_right h1 (two_zpow_pos 971).le
    exact_mod_cast h4

/-- **C113** in double precision. -/
theorem C113_binary64_partial (expR logR : ℝ → Flt) (sumR : List ℝ → Flt)
    (c : FloatContract (Binary64.ops expR logR sumR) (2 ^ 1024) (2 ^ (-1075 : ℤ)))
    (n : ℕ) (v : List ℝ) (hn : n * (n + 1) = 2 * v.length)
    (hv : ∀ a ∈ v, Binary64.Rep a ∧ |a| < 2 ^ 1023) :
    (Binary64.ops expR logR sumR).symVectorRoundTrip n v = v.map fin := by
  refine C113_matrix_vector_partial c n v hn (fun a ha => (hv a ha).1) ?_
  intro i hi
  rcases lt_or_ge (symIndex i i) v.length with h | h
  · rw [List.getD_eq_getElem _ _ h]
    exact (hv _ (List.getElem_mem h)).1.double (hv _ (List.getElem_mem h)).2
  · rw [List.getD_eq_default _ _ h, mul_zero]
    exact c.zero

/-- **C113** is false for huge diagonal entries: an entry whose double overflows comes back as infinity. -/
theorem C113_counterexample {o : FloatOps} {over under : ℝ} (c : FloatContract o over under)
    (d : ℝ) (hov : over ≤ 2 * d) : o.symVectorRoundTrip 1 [d] = [pinf] := by
  have h1 : o.add (fin d) (fin d) = pinf := by
    show o.rnd (d + d) = _
    rw [← two_mul]
    exact c.rnd_over hov
  have h2 : trilIndices 1 = [(0, 0)] := rfl
  simp only [FloatOps.symVectorRoundTrip, h2, List.map_cons, List.map_nil, FloatOps.unvectorizeSymEntry]
  simp only [le_refl, if_true, symIndex, List.getD_cons_zero, mul_one, Nat.zero_div, zero_add, Nat.zero_mul, h1]
  rfl

example : Binary64.Rep (2 ^ 1023) ∧ (2 : ℝ) ^ 1024 ≤ 2 * 2 ^ 1023 :=
  ⟨Binary64.rep_pow1023, by rw [← pow_succ']⟩

/-- The vector of a 2 x 2 matrix. -/
example : 2 * (2 + 1) = 2 * [(1 : ℝ), 1 / 2, 3].length ∧
    ∀ a ∈ [(1 : ℝ), 1 / 2, 3], Binary64.Rep a ∧ |a| < 2 ^ 1023 := by
  have hb : (4 : ℝ) < 2 ^ 1023 :=
    lt_of_lt_of_le (show (4 : ℝ) < 2 ^ 3 by norm_num) (pow_le_pow_right₀ one_le_two (by norm_num))
  refine ⟨by simp, ?_⟩
  simp only [List.mem_cons, List.not_mem_nil, or_false, forall_eq_or_imp, forall_eq]
  refine ⟨⟨?_, ?_⟩, ⟨?_, ?_⟩, ⟨?_, ?_⟩⟩
  · exact ⟨1, 0, by norm_num, by norm_num, by norm_num, by norm_num⟩
  · refine lt_trans ?_ hb
    norm_num
  · exact ⟨1, -1, by norm_num, by norm_num, by norm_num, by norm_num⟩
  · refine lt_trans ?_ hb
    rw [abs_of_pos] <;> norm_num
  · exact ⟨3, 0, by norm_num, by norm_num, by norm_num, by norm_num⟩
  · refine lt_trans ?_ hb
    rw [abs_of_pos] <;> norm_num

/-! ### C114: the size of a matrix from the length of its vector -/

/-- **C114**: for every length up to `2 ** 48`, the size computed with floats is the right one: it is `n` when
the length is `n (n + 1) / 2`, and `ValueError` is raised when there is no such `n`. -/
theorem C114_size (expR logR : ℝ → Flt) (sumR : List ℝ → Flt) (len : ℕ) (hlen : len < 2 ^ 48) :
    (∀ n : ℕ, n * (n + 1) = 2 * len → (Binary64.ops expR logR sumR).ldMatSizeChecked len = .ok n) ∧
    ((¬ ∃ n : ℕ, n * (n + 1) = 2 * len) →
      (Binary64.ops expR logR sumR).ldMatSizeChecked len = .error .valueError) := by
  set o := Binary64.ops expR logR sumR with ho
  have hrnd : ∀ k : ℕ, k < 2 ^ 53 → o.rnd (k : ℝ) = fin k := fun k hk => Binary64.rnd_rep (Binary64.rep_nat k hk)
  have h1 : o.rnd (1 + 8 * (len : ℝ)) = fin ((1 + 8 * len : ℕ) : ℝ) := by
    rw [← hrnd (1 + 8 * len) (by omega)]
    push_cast
    rfl
  have hs0 : (0 : ℝ) ≤ ((1 + 8 * len : ℕ) : ℝ) := by positivity
  -- the square root is at least 1 and at most 2 ^ 26
  have hs1 : (1 : ℝ) ≤ Real.sqrt ((1 + 8 * len : ℕ) : ℝ) := by
    rw [Real.one_le_sqrt]
    push_cast
    have : (0 : ℝ) ≤ len := by positivity
    linarith
  have hs2 : Real.sqrt ((1 + 8 * len : ℕ) : ℝ) ≤ ((2 ^ 26 : ℕ) : ℝ) := by
    rw [Real.sqrt_le_left (by positivity)]
    have : 1 + 8 * len ≤ (2 ^ 26) ^ 2 := by norm_num; omega
    exact_mod_cast this
  have hfin : ∀ (x : ℝ) (a b : ℕ), a < 2 ^ 53 → b < 2 ^ 53 → (a : ℝ) ≤ x → x ≤ b →
      ∃ r, o.rnd x = fin r ∧ (a : ℝ) ≤ r ∧ r ≤ b := by
    intro x a b ha hb hax hxb
    exact Flt.between_fin (Binary64.rnd_mono_le (Binary64.rep_nat a ha) hax)
      (Binary64.rnd_mono_ge (Binary64.rep_nat b hb) hxb)
  obtain ⟨s, hs, hsl, hsu⟩ := hfin _ 1 (2 ^ 26) (by norm_num) (by norm_num) (by simpa using hs1) hs2
  obtain ⟨t, ht, htl, htu⟩ := hfin (s + -1) 0 (2 ^ 26) (by norm_num) (by norm_num)
    (by push_cast at hsl ⊢; linarith) (by push_cast at hsu ⊢; linarith)
  obtain ⟨u, hu, hul, huu⟩ := hfin (1 / 2 * t) 0 (2 ^ 26) (by norm_num) (by norm_num)
    (by push_cast at htl ⊢; linarith) (by push_cast at htl htu ⊢; linarith)
  have hsize : o.ldMatSize len = .ok ⌊u⌋₊ := by
    unfold FloatOps.ldMatSize
    rw [h1]
    have e1 : o.round (fin (Real.sqrt ((1 + 8 * len : ℕ) : ℝ))) = fin s := hs
    have e2 : o.sub (fin s) (fin 1) = fin t := ht
    have e3 : o.mul (fin (1 / 2)) (fin t) = fin u := hu
    simp only [e1, e2, e3]
  set k := ⌊u⌋₊ with hk
  have hk2 : k ≤ 2 ^ 26 := Nat.floor_le_of_le huu
  have hexact : ∀ n : ℕ, n * (n + 1) = 2 * len → k = n := by
    intro n hn
    have hsq : Real.sqrt ((1 + 8 * len : ℕ) : ℝ) = ((2 * n + 1 : ℕ) : ℝ) := by
      rw [show (1 + 8 * len : ℕ) = (2 * n + 1) ^ 2 by nlinarith, Nat.cast_pow, Real.sqrt_sq (by positivity)]
    have hn26 : 2 * n + 1 ≤ 2 ^ 26 := by
      rw [hsq] at hs2
      exact_mod_cast hs2
    rw [hsq, hrnd _ (by omega)] at hs
    have hs' : s = ((2 * n + 1 : ℕ) : ℝ) := by cases hs; rfl
    have e1 : s + -1 = ((2 * n : ℕ) : ℝ) := by rw [hs']; push_cast; ring
    rw [e1, hrnd _ (by omega)] at ht
    have ht' : t = ((2 * n : ℕ) : ℝ) := by cases ht; rfl
    have e2 : 1 / 2 * t = ((n : ℕ) : ℝ) := by rw [ht']; push_cast; ring
    rw [e2, hrnd _ (by omega)] at hu
    have hu' : u = (n : ℝ) := by cases hu; rfl
    rw [hk, hu', Nat.floor_natCast]
  have hprod : ∃ q : ℕ, 2 * q = k * (k + 1) ∧ q < 2 ^ 53 := by
    obtain ⟨q, hq⟩ := Nat.even_mul_succ_self k
    refine ⟨q, by omega, ?_⟩
    have : k * (k + 1) ≤ 2 ^ 26 * (2 ^ 26 + 1) := Nat.mul_le_mul hk2 (by omega)
    norm_num at this ⊢
    omega
  obtain ⟨q, hq, hq53⟩ := hprod
  have hdiv : o.rnd (((k * (k + 1) : ℕ) : ℝ) / 2) = fin q := by
    rw [← hq]
    push_cast
    rw [mul_div_cancel_left₀ _ (two_ne_zero)]
    exact hrnd q hq53
  have hres : o.ldMatSizeChecked len = if (q : ℝ) ≠ len then .error .valueError else .ok k := by
    unfold FloatOps.ldMatSizeChecked
    rw [hsize]
    show (match o.rnd (((k * (k + 1) : ℕ) : ℝ) / 2) with
      | fin r => if r ≠ len then Except.error PyErr.valueError else .ok k
      | _ => .error .unmodelled) = _
    rw [hdiv]
  constructor
  · intro n hn
    have hkn := hexact n hn
    rw [hres, if_neg, hkn]
    rw [not_not]
    have : q = len := by rw [hkn] at hq; omega
    rw [this]
  · intro hno
    rw [hres, if_pos]
    intro h
    have h2 : q = len := by exact_mod_cast h
    exact hno ⟨k, by omega⟩

example : (100000 : ℕ) * (100000 + 1) = 2 * 5000050000 ∧ 5000050000 < 2 ^ 48 := by norm_num

end

end LRVB
